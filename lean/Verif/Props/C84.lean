import Verif.Lemmas.PageLemm
import Verif.Lemmas.PageMatch
import Verif.Lemmas.Utf8
import Verif.Spec.RusSample
/-
C84: the Russian dictionary in another code page gives the answers it gives in code page 1251, converted.  The theorems hold for
all images, also damaged ones, and for every conversion that meets the contract `Page.Ok`.
-/
namespace Libmorph

variable {P : Page} {enc : Byte → List Byte} {known : Byte → Prop}

/-- **C84** A word is recognized in the page if it is in 1251. -/
theorem C84_check (hP : P.Ok enc known) (im : RusImages) (junk w : List Byte) (hk : ∀ b ∈ w, known b) (hl : w.length < 48) (dwsets : Nat) :
    rusCheckIn P im junk (inPage enc w) dwsets = rusCheck im junk w dwsets := by
  simp only [rusCheckIn, rusCheck, rusPrepareIn_eq hP w hk hl]
  rcases rusPrepare w dwsets with _ | e | ⟨a, b⟩ <;> rfl

/-- **C84** The forms of a word. -/
theorem C84_find_forms (hP : P.Ok enc known) (im : RusImages) (junk w : List Byte) (hk : ∀ b ∈ w, known b) (hl : w.length < 48)
    (idform dwsets : Nat) :
    SameTexts enc (fun B => rusFindForms im junk (some B) w idform dwsets)
      (fun B => rusFindFormsIn P im junk (some B) (inPage enc w) idform dwsets) := by
  simp only [rusFindFormsIn, rusFindForms, rusPrepareIn_eq hP w hk hl]
  rcases hpr : rusPrepare w dwsets with _ | e | ⟨locase, scheme⟩
  · exact ⟨by simp, by simp, by simp⟩
  · have he := rusPrepare_error hpr
    refine sameTexts_of hP (scan := fun _ _ s => some (if e = 0 then none else some e, s)) (Ended.ret _ ?_) ?_ ?_
    · intro x hx
      rcases he with rfl | rfl
      · simp at hx
      · rw [if_neg (by decide)] at hx
        cases hx
        decide
    · intro B hB
      have h0 : B.length ≠ 0 := fun h => hB (List.length_eq_zero_iff.1 h)
      rcases he with rfl | rfl <;> simp [h0, formAnswer, formResult, WORDBUFF_FAILED]
    · intro B hB
      have h0 : B.length ≠ 0 := fun h => hB (List.length_eq_zero_iff.1 h)
      rcases he with rfl | rfl <;> simp [h0, formAnswer, formResult, WORDBUFF_FAILED]
  · refine sameTexts_of hP (findForms_ended im idform locase junk scheme dwsets) ?_ ?_
    · intro B hB
      have h0 : B.length ≠ 0 := fun h => hB (List.length_eq_zero_iff.1 h)
      simp only [bind, Option.bind_some, if_neg h0, rusFormBuild_texts, formAnswer]
      rcases rusScan im locase junk scheme dwsets (fun _ lextem inflex suffix _ s =>
        formTexts im idform (stemOf locase junk inflex) suffix lextem putText s) ⟨⟨some B, 0⟩, 0⟩ with _ | ⟨r, s⟩ <;> rfl
    · intro B hB
      have h0 : B.length ≠ 0 := fun h => hB (List.length_eq_zero_iff.1 h)
      simp only [bind, Option.bind_some, if_neg h0, rusFormBuildIn_texts, formAnswer]
      rcases rusScan im locase junk scheme dwsets (fun _ lextem inflex suffix _ s =>
        formTexts im idform (stemOf locase junk inflex) suffix lextem (putTextIn P) s) ⟨⟨some B, 0⟩, 0⟩ with _ | ⟨r, s⟩ <;> rfl

/-- **C84** The forms of a lexeme. -/
theorem C84_build_form (hP : P.Ok enc known) (im : RusImages) (junk : List Byte) (nlexid idform : Nat) :
    SameTexts enc (fun B => rusBuildForm im junk (some B) nlexid idform) (fun B => rusBuildFormIn P im junk (some B) nlexid idform) := by
  simp only [rusBuildFormIn, rusBuildForm]
  rcases lidLookup im.lidstree junk nlexid with _ | _ | ofs
  · refine sameTexts_of hP (scan := fun _ _ _ => none) Ended.undefined ?_ ?_
    all_goals
      intro B hB
      have h0 : B.length ≠ 0 := fun h => hB (List.length_eq_zero_iff.1 h)
      rw [if_neg h0]; rfl
  · refine sameTexts_of hP (scan := fun _ _ s => some (none, s)) (Ended.ret none (by simp)) ?_ ?_
    all_goals
      intro B hB
      have h0 : B.length ≠ 0 := fun h => hB (List.length_eq_zero_iff.1 h)
      rw [if_neg h0]; rfl
  · refine sameTexts_of hP (buildForm_ended im idform (im.stemtree.length - ofs)) ?_ ?_
    · intro B hB
      have h0 : B.length ≠ 0 := fun h => hB (List.length_eq_zero_iff.1 h)
      have hc : rusBuildClass im idform = fun _ oclass track suffix s =>
          match loadRus im.classmap oclass with
          | none => none
          | some lextem => formTexts im idform track suffix lextem putText s := by
        funext _ oclass track suffix s
        simp only [rusBuildClass, rusFormBuild_texts]
        rcases loadRus im.classmap oclass with _ | l <;> rfl
      simp only [bind, Option.bind_some, if_neg h0, hc, formAnswer]
      generalize formLength = fl
      rcases getTrack .u8 (selectView (fun _ oclass track suffix s =>
          match loadRus im.classmap oclass with
          | none => none
          | some lextem => formTexts im idform track suffix lextem putText s) (im.stemtree.length - ofs))
          (some (im.stemtree.length - ofs)) fl im.stemtree [] ⟨⟨some B, 0⟩, 0⟩ with _ | ⟨r, s⟩ <;> rfl
    · intro B hB
      have h0 : B.length ≠ 0 := fun h => hB (List.length_eq_zero_iff.1 h)
      have hc : rusBuildClassIn P im idform = fun _ oclass track suffix s =>
          match loadRus im.classmap oclass with
          | none => none
          | some lextem => formTexts im idform track suffix lextem (putTextIn P) s := by
        funext _ oclass track suffix s
        simp only [rusBuildClassIn, rusFormBuildIn_texts]
        rcases loadRus im.classmap oclass with _ | l <;> rfl
      simp only [bind, Option.bind_some, if_neg h0, hc, formAnswer]
      generalize formLength = fl
      rcases getTrack .u8 (selectView (fun _ oclass track suffix s =>
          match loadRus im.classmap oclass with
          | none => none
          | some lextem => formTexts im idform track suffix lextem (putTextIn P) s) (im.stemtree.length - ofs))
          (some (im.stemtree.length - ofs)) fl im.stemtree [] ⟨⟨some B, 0⟩, 0⟩ with _ | ⟨r, s⟩ <;> rfl

/-- **C84** The lemmas of a word. -/
theorem C84_lemmatize (hP : P.Ok enc known) (im : RusImages) (junk w : List Byte) (hk : ∀ b ∈ w, known b) (hl : w.length < 48)
    (L : Option (List Lemm)) (G : Option (List Gram)) (dwsets : Nat) :
    SameLemmas enc (fun B => rusLemmatize im junk w L (some B) G dwsets) (fun B => rusLemmatizeIn P im junk (inPage enc w) L (some B) G dwsets) := by
  simp only [rusLemmatizeIn, rusLemmatize, rusPrepareIn_eq hP w hk hl]
  rcases hpr : rusPrepare w dwsets with _ | e | ⟨locase, scheme⟩
  · exact ⟨by simp, by simp, by simp⟩
  · have he := rusPrepare_error hpr
    have hrec : SameRecords enc [] L L := by
      cases L with
      | none => exact .inl ⟨rfl, rfl⟩
      | some l =>
        refine .inr ⟨l, l, rfl, rfl, rfl, by simp, fun i x y hx hy => ?_⟩
        rw [hx] at hy; cases hy
        exact ⟨rfl, rfl, rfl, fun h => absurd h (by simp)⟩
    have h0 : ∀ n, 0 ≤ n → e = n → n = 0 := by
      intro n hn he'
      subst he'
      rcases he with rfl | rfl
      · rfl
      · exact absurd hn (by decide)
    refine ⟨?_, ?_, ?_⟩
    · intro B n s hB hn
      simp only [bind, Option.bind_some, pure, Option.some.injEq, Prod.mk.injEq] at hB
      have := h0 n hn hB.1
      subst this
      refine ⟨[], rfl, by rw [← hB.2]; rfl, fun B' _ => ⟨⟨L, 0, ⟨some B', 0⟩, G, 0, 0⟩, by rw [hB.1]; rfl, rfl⟩, fun C => ⟨fun _ => ⟨⟨L, 0, ⟨some C, 0⟩, G, 0, 0⟩, by rw [hB.1]; rfl, rfl, by rw [← hB.2], ?_⟩, fun h => by simp [packed] at h⟩⟩
      rw [← hB.2]; exact hrec
    · intro C n t hC hn
      simp only [bind, Option.bind_some, pure, Option.some.injEq, Prod.mk.injEq] at hC
      have := h0 n hn hC.1
      subst this
      refine ⟨[], rfl, by rw [← hC.2]; rfl, by simp [packed], fun B => ⟨fun _ => ⟨⟨L, 0, ⟨some B, 0⟩, G, 0, 0⟩, by rw [hC.1]; rfl, rfl, by rw [← hC.2], by rw [← hC.2]; exact hrec⟩, fun h => by simp [packed] at h⟩⟩
    · intro B e' s hB _ _ C
      simp only [bind, Option.bind_some, pure, Option.some.injEq, Prod.mk.injEq] at hB
      exact ⟨⟨L, 0, ⟨some C, 0⟩, G, 0, 0⟩, .inl (by rw [← hB.1]; rfl)⟩
  · obtain ⟨V, ok, hV⟩ := rusScan_listed im locase junk scheme dwsets
    refine sameLemmas_of hP (V.map (callOf im dwsets locase junk)) ?_ ok L G ?_ ?_
    · intro c hc
      obtain ⟨v, -, rfl⟩ := List.mem_map.1 hc
      exact callOf_ok _ _ _ _ _
    · intro B
      have h := hV LemmState Int (fun v s => rusLemmCall im dwsets v.1 v.2.1 (stemOf locase junk v.2.2.1) v.2.2.2.1 v.2.2.2.2 s) ⟨L, 0, ⟨some B, 0⟩, G, 0, 0⟩
      simp only at h
      simp only [bind, Option.bind_some]
      rw [h]
      simp only [runThen, rusLemmCall_text, runList_map]
      rcases runList (fun a => textCall Coder.appendz (callOf im dwsets locase junk a)) V ⟨L, 0, ⟨some B, 0⟩, G, 0, 0⟩ with _ | ⟨_ | e, s⟩
      · rfl
      · cases ok <;> rfl
      · simp only [Option.bind_some, lemmAnswer]
        split <;> rfl
    · intro B
      have h := hV LemmState Int (fun v s => rusLemmCallIn P im dwsets v.1 v.2.1 (stemOf locase junk v.2.2.1) v.2.2.2.1 v.2.2.2.2 s) ⟨L, 0, ⟨some B, 0⟩, G, 0, 0⟩
      simp only at h
      simp only [bind, Option.bind_some]
      rw [h]
      simp only [runThen, rusLemmCallIn_text, runList_map]
      rcases runList (fun a => textCall (Coder.appendzIn P) (callOf im dwsets locase junk a)) V ⟨L, 0, ⟨some B, 0⟩, G, 0, 0⟩ with _ | ⟨_ | e, s⟩
      · rfl
      · cases ok <;> rfl
      · simp only [Option.bind_some, lemmAnswer]
        split <;> rfl

/-- **C84** Without a buffer for the lemmas the answer is the same to the last bit. -/
theorem C84_lemmatize_numbers (hP : P.Ok enc known) (im : RusImages) (junk w : List Byte) (hk : ∀ b ∈ w, known b) (hl : w.length < 48)
    (L : Option (List Lemm)) (G : Option (List Gram)) (dwsets : Nat) :
    rusLemmatizeIn P im junk (inPage enc w) L none G dwsets = rusLemmatize im junk w L none G dwsets := by
  simp only [rusLemmatizeIn, rusLemmatize, rusPrepareIn_eq hP w hk hl]
  rcases hpr : rusPrepare w dwsets with _ | e | ⟨locase, scheme⟩
  · simp only [bind, Option.bind_none]
  · simp only [bind, Option.bind_some]
  · obtain ⟨V, ok, hV⟩ := rusScan_listed im locase junk scheme dwsets
    have h1 := hV LemmState Int (fun v s => rusLemmCall im dwsets v.1 v.2.1 (stemOf locase junk v.2.2.1) v.2.2.2.1 v.2.2.2.2 s) ⟨L, 0, ⟨none, 0⟩, G, 0, 0⟩
    have h2 := hV LemmState Int (fun v s => rusLemmCallIn P im dwsets v.1 v.2.1 (stemOf locase junk v.2.2.1) v.2.2.2.1 v.2.2.2.2 s) ⟨L, 0, ⟨none, 0⟩, G, 0, 0⟩
    simp only at h1 h2
    simp only [bind, Option.bind_some]
    rw [h1, h2]
    have h3 := textRun_null Coder.appendz (Coder.appendzIn P) (V.map (callOf im dwsets locase junk)) (s := ⟨L, 0, ⟨none, 0⟩, G, 0, 0⟩) rfl
    simp only [runList_map] at h3
    simp only [runThen, rusLemmCall_text, rusLemmCallIn_text, h3]
    have hX' : runList (fun v s => textCall (Coder.appendzIn P) (callOf im dwsets locase junk v) s) V ⟨L, 0, ⟨none, 0⟩, G, 0, 0⟩ =
      runList (fun v => textCall (Coder.appendzIn P) (callOf im dwsets locase junk v)) V ⟨L, 0, ⟨none, 0⟩, G, 0, 0⟩ := rfl
    simp only [hX']
    rcases runList (fun a => textCall (Coder.appendzIn P) (callOf im dwsets locase junk a)) V ⟨L, 0, ⟨none, 0⟩, G, 0, 0⟩ with _ | ⟨_ | e, s⟩
    · rfl
    · cases ok <;> rfl
    · simp only [Option.bind_some]

/-- **C84** A word of more than 48 letters is refused. -/
theorem C84_long (hP : P.Ok enc known) (im : RusImages) (junk w : List Byte) (hk : ∀ b ∈ w, known b) (hl : 48 < w.length) (dwsets : Nat) :
    rusCheckIn P im junk (inPage enc w) dwsets = some WORDBUFF_FAILED ∧
    (∀ L B G, rusLemmatizeIn P im junk (inPage enc w) L B G dwsets = some (WORDBUFF_FAILED, ⟨L, 0, ⟨B, 0⟩, G, 0, 0⟩)) ∧
    (∀ B i, B ≠ [] → rusFindFormsIn P im junk (some B) (inPage enc w) i dwsets = some (WORDBUFF_FAILED, some B)) := by
  have hp : rusPrepareIn P (inPage enc w) dwsets = some (.error WORDBUFF_FAILED) := by
    have := hP.length_le w
    have hc : rusCanonicIn P (inPage enc w) = some none := by
      rw [rusCanonicIn, if_neg (by omega)]
      cases hi : P.into formLength (inPage enc w) with
      | none => rfl
      | some t =>
        have := (hP.into_some _ _ _ hk hi).2
        simp only [formLength] at this
        omega
    simp only [rusPrepareIn, hc]
    rfl
  refine ⟨by simp only [rusCheckIn, hp]; rfl, fun L B G => by simp only [rusLemmatizeIn, hp]; rfl, fun B i hB => ?_⟩
  have h0 : B.length ≠ 0 := fun h => hB (List.length_eq_zero_iff.1 h)
  simp only [rusFindFormsIn, hp, bind, Option.bind_some, if_neg h0]
  rfl

/-- **C84** The wildcard search calls the client for the same lexemes with the same texts, converted.  The template is shorter than
48 bytes in the page; the texts of a lexeme fit the arrays `strbuf` and `sforms`; no lexeme has the number 0. -/
theorem C84_find_match (hP : P.Ok enc known) (im : RusImages) (tail smatch t : List Byte) (hk : ∀ b ∈ t, known b)
    (hl : (inPage enc t).length < 48) (hid : ∀ low sch V, capGet rusTab formLength t = some (some (low, sch)) → rusFound im tail smatch low = some V → ∀ x ∈ V, x.1 ≠ 0)
    (client client' : List (Nat × List StrMatch) → Int) (r : Int) (calls : List (Nat × List StrMatch))
    (h : rusFindMatch im tail smatch client t = some (r, calls))
    (hfit : ∀ c ∈ calls, (∀ m ∈ c.2, (inPage enc m.text).length ≤ 95) ∧ matchBytes (convMatches enc c.2) ≤ 256 * 96) :
    r = (if calls = [] then 0 else client calls) ∧
    rusFindMatchIn P im tail smatch client' (inPage enc t) =
      some (if calls = [] then 0 else client' (convCalls enc calls), convCalls enc calls) := by
  have hle := hP.length_le t
  simp only [rusFindMatch] at h
  by_cases h0 : t.length = 0
  · rw [if_pos h0] at h
    cases h
    have : t = [] := List.length_eq_zero_iff.1 h0
    subst this
    exact ⟨rfl, rfl⟩
  · rw [if_neg h0, if_neg (by simp only [formLength]; omega)] at h
    simp only [bind, Option.bind_eq_some_iff] at h
    obtain ⟨x, hx, h⟩ := h
    rcases x with _ | ⟨low, sch⟩
    · cases h
    · simp only [Option.bind_eq_some_iff] at h
      obtain ⟨⟨q, m', s'⟩, hq, h⟩ := h
      have hin : rusFindMatchIn P im tail smatch client' (inPage enc t) =
          (wildScan (rusWildTarget im (rusRegIn P)) (im.stemtree ++ tail) low (smatch, {})).bind fun r => some (r.2.2.finish client' r.1) := by
        simp only [rusFindMatchIn]
        rw [if_neg (by omega), if_neg (by simp only [formLength]; omega), hP.into_room _ t hk (by simp only [formLength]; omega)]
        simp only [hx, bind, Option.bind_some]
        rfl
      rw [hin]
      obtain ⟨V, e, hV, hfound⟩ := rusFound_eq im tail smatch low
      rw [rusReg_found, hV, Option.bind_eq_some_iff] at hq
      obtain ⟨s2, hs2, hq⟩ := hq
      cases e with
      | none => cases hq
      | some m2 =>
        simp only [Option.map_some, Option.some.injEq, Prod.mk.injEq] at hq
        obtain ⟨rfl, rfl, rfl⟩ := hq
        have hV0 := hid low sch V hx hfound
        have hlast := regAll_last V hV0 hs2
        have hcalls : calls = s2.final ∧ r = if calls = [] then 0 else client calls := by
          simp only [MatchSt.finish, ne_eq, not_true_eq_false, if_false, pure, Option.some.injEq] at h
          simp only [MatchSt.final]
          by_cases hz : s2.lastId = 0
          · have : s2 = {} := hlast.resolve_right (fun h => h hz)
            subst this
            simp at h
            obtain ⟨rfl, rfl⟩ := h
            simp
          · simp only [hz, not_false_eq_true, if_true, Prod.mk.injEq] at h
            obtain ⟨rfl, rfl⟩ := h
            simp [hz]
        refine ⟨hcalls.2, ?_⟩
        have hrun := (regAll_step hP V hV0 (s := {}) (fun _ => rfl) hs2 (fun c hc => hfit c (by rw [hcalls.1]; exact hc))).1
        rw [rusRegIn_eq, hV]
        have hstart : convSt enc {} = {} := rfl
        rw [hstart] at hrun
        rw [hrun]
        simp only [Option.bind_some, Option.map_some, MatchSt.finish, ne_eq, not_true_eq_false, if_false]
        by_cases hz : s2.lastId = 0
        · have : s2 = {} := hlast.resolve_right (fun h => h hz)
          subst this
          have : calls = [] := by rw [hcalls.1]; rfl
          subst this
          rfl
        · have hc : calls = s2.calls ++ [(s2.lastId, s2.amatch)] := by rw [hcalls.1, MatchSt.final, if_pos hz]
          have hz' : ¬ (convSt enc s2).lastId = 0 := hz
          simp only [hz', not_false_eq_true, if_true]
          rw [if_neg (by rw [hc]; simp), hc]
          simp [convSt, convCalls]

/-- **C84** A template of 48 bytes and more is refused, even when it has fewer than 48 letters. -/
theorem C84_template_refused (im : RusImages) (tail smatch t : List Byte) (hl : 48 ≤ (inPage enc t).length)
    (client : List (Nat × List StrMatch) → Int) :
    rusFindMatchIn P im tail smatch client (inPage enc t) = some (WORDBUFF_FAILED, []) := by
  rw [rusFindMatchIn, if_neg (by omega), if_pos (by simpa [formLength] using hl)]
  rfl

/-! ### UTF-8 on a small dictionary -/

/-- The word "сна" in UTF-8 is recognized. -/
example : inPage utf8Enc [241, 237, 224] = [0xd1, 0x81, 0xd0, 0xbd, 0xd0, 0xb0] ∧
    rusCheckIn utf8Page (rusSampleState.images rusSample.mtab) [] [0xd1, 0x81, 0xd0, 0xbd, 0xd0, 0xb0] 0 = some 1 := by decide +kernel

/-- The theorems apply to UTF-8. -/
example : SameTexts utf8Enc (fun B => rusFindForms (rusSampleState.images rusSample.mtab) [] (some B) [241, 237, 224] 0 0)
    (fun B => rusFindFormsIn utf8Page (rusSampleState.images rusSample.mtab) [] (some B) (inPage utf8Enc [241, 237, 224]) 0 0) :=
  C84_find_forms utf8Page_ok (rusSampleState.images rusSample.mtab) [] [241, 237, 224] (by decide) (by decide) 0 0

/-- "сон", in 1251 and in UTF-8; in a buffer of 7 bytes there is just room for the UTF-8 text and its zero. -/
example : rusFindForms (rusSampleState.images rusSample.mtab) [] (some [1, 1, 1, 1, 1]) [241, 237, 224] 0 0 = some (1, some [241, 238, 237, 0, 0]) ∧
    rusFindFormsIn utf8Page (rusSampleState.images rusSample.mtab) [] (some [1, 1, 1, 1, 1, 1, 1, 1, 1]) (inPage utf8Enc [241, 237, 224]) 0 0
      = some (1, some [0xd1, 0x81, 0xd0, 0xbe, 0xd0, 0xbd, 0, 0, 1]) ∧
    rusFindFormsIn utf8Page (rusSampleState.images rusSample.mtab) [] (some [1, 1, 1, 1, 1, 1, 1]) (inPage utf8Enc [241, 237, 224]) 0 0
      = some (1, some [0xd1, 0x81, 0xd0, 0xbe, 0xd0, 0xbd, 0]) ∧
    (rusFindFormsIn utf8Page (rusSampleState.images rusSample.mtab) [] (some [1, 1, 1, 1, 1, 1]) (inPage utf8Enc [241, 237, 224]) 0 0).map Prod.fst
      = some LEMMBUFF_FAILED := by decide +kernel

/-- The template "с*" meets the conditions of the theorem, in UTF-8. -/
example : ∃ calls, calls ≠ [] ∧ rusFindMatchIn utf8Page (rusSampleState.images rusSample.mtab) [0] (List.replicate 48 0) (fun _ => 5) (inPage utf8Enc [241, 42])
    = some (5, convCalls utf8Enc calls) := by
  have h : (rusFindMatch (rusSampleState.images rusSample.mtab) [0] (List.replicate 48 0) (fun _ => 7) [241, 42]).isSome = true := by decide +kernel
  obtain ⟨⟨r, calls⟩, hc⟩ := Option.isSome_iff_exists.1 h
  have hlow : capGet rusTab formLength [241, 42] = some (some ([241, 42], (2 <<< 16) ||| 0x1ff)) := by decide +kernel
  have hall : ((rusFound (rusSampleState.images rusSample.mtab) [0] (List.replicate 48 0) [241, 42]).getD []).all (fun x => x.1 != 0) = true := by decide +kernel
  have hfit : (((rusFindMatch (rusSampleState.images rusSample.mtab) [0] (List.replicate 48 0) (fun _ => 7) [241, 42]).getD (0, [])).2).all
      (fun c => c.2.all (fun m => decide ((inPage utf8Enc m.text).length ≤ 95)) && decide (matchBytes (convMatches utf8Enc c.2) ≤ 256 * 96)) = true := by decide +kernel
  have hne : ((rusFindMatch (rusSampleState.images rusSample.mtab) [0] (List.replicate 48 0) (fun _ => 7) [241, 42]).getD (0, [])).2 ≠ [] := by decide +kernel
  rw [hc] at hfit hne
  have hne : calls ≠ [] := hne
  have := (C84_find_match utf8Page_ok (rusSampleState.images rusSample.mtab) [0] (List.replicate 48 0) [241, 42] (by decide) (by decide)
    (fun low sch V h1 h2 x hx => by
      rw [hlow] at h1
      cases h1
      rw [h2] at hall
      have := List.all_eq_true.1 hall x hx
      simpa using this) (fun _ => 7) (fun _ => 5) r calls hc (fun c hcc => by
      have := List.all_eq_true.1 hfit c hcc
      simp only [Bool.and_eq_true, List.all_eq_true, decide_eq_true_eq] at this
      exact this)).2
  rw [if_neg hne] at this
  exact ⟨calls, hne, this⟩

/-- 24 letters are too many for a template in UTF-8, though not in 1251. -/
example : rusFindMatchIn utf8Page (rusSampleState.images rusSample.mtab) [0] (List.replicate 48 0) (fun _ => 7) (inPage utf8Enc (List.replicate 24 241))
      = some (WORDBUFF_FAILED, []) ∧
    rusFindMatch (rusSampleState.images rusSample.mtab) [0] (List.replicate 48 0) (fun _ => 7) (List.replicate 24 241) = some (0, []) := by decide +kernel

end Libmorph
