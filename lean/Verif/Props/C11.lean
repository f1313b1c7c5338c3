import Verif.Lemmas.Trace
import Verif.Lemmas.CapAny
import Verif.Lemmas.EngLemm
import Verif.Spec.EngSample
/-
C11, C12, C13, C14: CheckWord and Lemmatize, capitals, malformed words (English).
-/
namespace Libmorph

/-! ### C11 -/

theorem anyway_trace (l : List TargetCall) (ok : Bool) :
    runTrace (fun x : TargetCall => anywayOk x.1 x.2.1 x.2.2.1 x.2.2.2.1 x.2.2.2.2) l ok ()
      = match l with
        | [] => if ok then some (none, ()) else none
        | _ :: _ => some (some 1, ()) := by
  cases l <;> rfl

theorem lemmNull_trace (flexTree locase junk : List Byte) (l : List TargetCall) (ok : Bool) (n : Int) (hn : 0 ≤ n) :
    runTrace (fun x : TargetCall => lemmCall flexTree x.1 x.2.1 (stemOf locase junk x.2.2.1) x.2.2.2.1 x.2.2.2.2) l ok
        ⟨none, 0, ⟨none, 0⟩, none, 0, n⟩
      = if ok then some (none, ⟨none, 0, ⟨none, 0⟩, none, 0, n + l.length⟩) else none := by
  induction l generalizing n with
  | nil => simp [runTrace]
  | cons x l ih =>
    have hstep : lemmCall flexTree x.1 x.2.1 (stemOf locase junk x.2.2.1) x.2.2.2.1 x.2.2.2.2
        (⟨none, 0, ⟨none, 0⟩, none, 0, n⟩ : LemmState) = some (none, ⟨none, 0, ⟨none, 0⟩, none, 0, n + 1⟩) := by
      simp [lemmCall, lemmCallWith, lemmOpen, lemmForm, lemmGrams, show ¬ n < 0 by omega]
    simp only [runTrace, hstep]
    rw [ih (n + 1) (by omega)]
    simp only [List.length_cons, Nat.cast_add, Nat.cast_one]
    rw [show n + 1 + (l.length : Int) = n + ((l.length : Int) + 1) by omega]

/-- **C11** on any dictionary images at all, any word, any settings: when Lemmatize is called without
buffers and has a defined outcome, so has CheckWord, and either both return the same code or "not found"
(not positive), or CheckWord returns 1 and Lemmatize a positive number of lexemes. -/
theorem C11_agree (im : Images) (junk w : List Byte) (dwsets : Nat) (n : Int) (s : LemmState)
    (h : lemmatize im junk w none none none dwsets = some (n, s)) :
    ∃ r, checkWord im junk w dwsets = some r ∧ ((r = n ∧ n ≤ 0) ∨ (r = 1 ∧ 0 < n)) := by
  simp only [lemmatize, bind, Option.bind_eq_some_iff] at h
  obtain ⟨pr, hp, h⟩ := h
  cases pr with
  | error e =>
    simp only [pure, Option.some.injEq, Prod.mk.injEq] at h
    refine ⟨e, by simp [checkWord, hp], Or.inl ⟨h.1, ?_⟩⟩
    rw [← h.1]
    simp only [prepare, bind, Option.bind_eq_some_iff] at hp
    obtain ⟨c, -, hp⟩ := hp
    cases c with
    | none => simp [WORDBUFF_FAILED] at hp; omega
    | some c =>
      simp only at hp
      split at hp
      · simp at hp; omega
      · split at hp
        · simp at hp; omega
        · simp at hp
  | ok z =>
    obtain ⟨locase, scheme⟩ := z
    obtain ⟨l, ok, ht⟩ := scanWord_traced im locase junk scheme dwsets
    have h1 := ht (fun x : TargetCall => lemmCall im.flexTree x.1 x.2.1 (stemOf locase junk x.2.2.1) x.2.2.2.1 x.2.2.2.2)
      (⟨none, 0, ⟨none, 0⟩, none, 0, 0⟩ : LemmState)
    have h2 := ht (fun x : TargetCall => anywayOk x.1 x.2.1 x.2.2.1 x.2.2.2.1 x.2.2.2.2) ()
    simp only at h1 h2
    rw [lemmNull_trace _ _ _ _ _ _ (le_refl _)] at h1
    rw [anyway_trace] at h2
    simp only [h1] at h
    cases ok with
    | false => simp at h
    | true =>
      simp only [if_true, Option.bind_some, pure, Option.some.injEq, Prod.mk.injEq] at h
      simp only [checkWord, hp, bind, Option.bind_some]
      change ∃ r, ((scanWord im locase junk scheme dwsets (fun a b c d e => anywayOk a b c d e) ()).bind fun x => pure (x.1.getD 0)) = some r ∧ _
      rw [h2]
      cases l with
      | nil => exact ⟨0, by simp, Or.inl ⟨by simpa using h.1, by rw [← h.1]; simp⟩⟩
      | cons x l =>
        refine ⟨1, by simp, Or.inr ⟨rfl, ?_⟩⟩
        rw [← h.1]; simp only [List.length_cons]; omega

/-- **C11** the other way: when CheckWord finds nothing, Lemmatize (without buffers) returns the same number. -/
theorem C11_not_found (im : Images) (junk w : List Byte) (dwsets : Nat) (r : Int)
    (h : checkWord im junk w dwsets = some r) (hr : r ≤ 0) :
    ∃ s, lemmatize im junk w none none none dwsets = some (r, s) := by
  simp only [checkWord, bind, Option.bind_eq_some_iff] at h
  obtain ⟨pr, hp, h⟩ := h
  cases pr with
  | error e =>
    simp only [pure, Option.some.injEq] at h
    exact ⟨_, by simp only [lemmatize, hp, bind, Option.bind_some, pure, h]; rfl⟩
  | ok z =>
    obtain ⟨locase, scheme⟩ := z
    obtain ⟨l, ok, ht⟩ := scanWord_traced im locase junk scheme dwsets
    have h1 := ht (fun x : TargetCall => lemmCall im.flexTree x.1 x.2.1 (stemOf locase junk x.2.2.1) x.2.2.2.1 x.2.2.2.2)
      (⟨none, 0, ⟨none, 0⟩, none, 0, 0⟩ : LemmState)
    have h2 := ht (fun x : TargetCall => anywayOk x.1 x.2.1 x.2.2.1 x.2.2.2.1 x.2.2.2.2) ()
    simp only at h1 h2
    rw [lemmNull_trace _ _ _ _ _ _ (le_refl _)] at h1
    rw [anyway_trace] at h2
    change ((scanWord im locase junk scheme dwsets (fun a b c d e => anywayOk a b c d e) ()).bind fun a => pure (a.1.getD 0)) = some r at h
    rw [h2] at h
    simp only [lemmatize, hp, bind, Option.bind_some, h1]
    cases l with
    | nil =>
      cases ok with
      | false => simp at h
      | true =>
        simp at h
        exact ⟨_, by simp [h]; rfl⟩
    | cons x l =>
      simp at h; omega

theorem heard_ids {as : List Article} {w : List Byte} {dwsets : Nat} {H : List (Article × List Byte)}
    (hr : Readings as w dwsets H) (hid : ((Matches as w dwsets).map fun p => p.1.id).Nodup) :
    (H.map fun p => p.1.id).Nodup := by
  obtain ⟨l, hp, hs⟩ := hr.sub
  exact (((hp.map _).nodup_iff).1 ((hs.map _).nodup hid))

/-- **C11** with buffers, on a compiled English dictionary, when the matching articles are distinct lexemes and
have dictionary forms: there is a number `n` such that CheckWord returns 0 or 1 as `n` is zero or not, and
every call of Lemmatize returns `n`, or the code of one of the supplied buffers.
Missing: lexemes filed under several articles (see C37), lexemes without forms numbered below 16 (false,
`C11_counterexample`). -/
theorem C11_buffers_partial {A : List Byte} {as : List Article} (h : EngOk A as) (w : List Byte) (dwsets : Nat)
    (hne : w ≠ []) (hlen : w.length < 48) (hparts : (wordParts engTab w).length ≤ 8)
    (hid : ((Matches as w dwsets).map fun p => p.1.id).Nodup)
    (hD : ∀ p ∈ Matches as w dwsets, p.1.dictForms ≠ []) :
    ∃ n : Nat, (∀ junk, checkWord (engBuild as).images junk w dwsets = some (if n = 0 then 0 else 1)) ∧
      ∀ junk L B G, ∃ r s, lemmatize (engBuild as).images junk w L B G dwsets = some (r, s) ∧
        (r = n ∨ (r = LIDSBUFF_FAILED ∧ ∃ l, L = some l ∧ l.length < n) ∨ (r = LEMMBUFF_FAILED ∧ B.isSome) ∨
          (r = GRAMBUFF_FAILED ∧ G.isSome ∧ L.isSome)) := by
  obtain ⟨V, hV⟩ := scanOf_exists h (w.map engTab.lower) (by simpa using hlen)
  have hr := heard_readings hV.visits dwsets
  refine ⟨(heard V w dwsets).length, ?_, ?_⟩
  · intro junk
    rw [checkWord_heard w junk dwsets hne hlen hparts hV]
    simp only [List.length_eq_zero_iff]
  · intro junk L B G
    obtain ⟨k1, k2⟩ := lemmatize_heard h w junk dwsets hne hlen hparts hV L B G (fun _ => heard_ids hr hid)
      (fun _ p hp => hD p (hr.mem hp))
    by_cases hroom : Roomy L B G (heard V w dwsets)
    · obtain ⟨s, h1, -⟩ := k1 hroom
      exact ⟨_, s, h1, Or.inl rfl⟩
    · obtain ⟨r, s, h1, h2, -⟩ := k2 hroom
      refine ⟨r, s, h1, Or.inr ?_⟩
      rcases h2 with ⟨h2, l, h3, h4⟩ | ⟨h2, b, h3, -⟩ | ⟨h2, l, g, h3, h4, -⟩
      · exact Or.inl ⟨h2, l, h3, h4⟩
      · exact Or.inr (Or.inl ⟨h2, by rw [h3]; rfl⟩)
      · exact Or.inr (Or.inr ⟨h2, by rw [h4]; rfl, by rw [h3]; rfl⟩)

/-- An article whose only form has the number 16: sixteen missing forms, then "s". -/
def lateArticle : Article := ⟨[97, 98], (124 :: (List.replicate 16 [45, 124]).flatten) ++ [115], 1, [], 5⟩

/-- **C11** refuted with a form buffer: the word "abs" is found by CheckWord, and by Lemmatize without a form
buffer, but not by Lemmatize with one, although all the buffers are large. -/
theorem C11_counterexample :
    checkWord (engBuild [lateArticle]).images [] [97, 98, 115] 0 = some 1 ∧
    (lemmatize (engBuild [lateArticle]).images [] [97, 98, 115] none none none 0).map (·.1) = some 1 ∧
    (lemmatize (engBuild [lateArticle]).images [] [97, 98, 115] none (some (List.replicate 100 7)) none 0).map (·.1)
      = some 0 := by decide +kernel

/-- The hypotheses are met: "brothers" in the sample dictionary. -/
example : ∃ n : Nat, (∀ junk, checkWord (engBuild engSample).images junk [98, 114, 111, 116, 104, 101, 114, 115] 0
      = some (if n = 0 then 0 else 1)) ∧
      ∀ junk L B G, ∃ r s, lemmatize (engBuild engSample).images junk [98, 114, 111, 116, 104, 101, 114, 115] L B G 0 = some (r, s) ∧
        (r = n ∨ (r = LIDSBUFF_FAILED ∧ ∃ l, L = some l ∧ l.length < n) ∨ (r = LEMMBUFF_FAILED ∧ B.isSome) ∨
          (r = GRAMBUFF_FAILED ∧ G.isSome ∧ L.isSome)) :=
  C11_buffers_partial engSample_ok _ 0 (by decide) (by decide) (by decide +kernel) (by decide +kernel) (by decide +kernel)

/-! ### C12 -/

/-- **C12** a word that is accepted under some settings is accepted with capitals ignored: every English
dictionary, every byte string, every content of the scratch memory. -/
theorem C12_ignoring_adds {A : List Byte} {as : List Article} (h : EngOk A as) (w junk junk' : List Byte) (d d' : Nat)
    (hd : d &&& 2 = 0) (hd' : d' &&& 2 ≠ 0) (hacc : checkWord (engBuild as).images junk w d = some 1) :
    checkWord (engBuild as).images junk' w d' = some 1 := by
  have hne : w ≠ [] := by
    rintro rfl
    simp [checkWord, prepare, toCanonic] at hacc
  -- the word was analysed and found good for some demand
  have hgood : w.length < 48 ∧ (wordParts engTab w).length ≤ 3 := by
    simp only [checkWord, bind, Option.bind_eq_some_iff] at hacc
    obtain ⟨pr, hp, hacc⟩ := hacc
    have hget : ∀ out s, pr = .ok (out, s) → capGet engTab formLength w = some (some (out, s)) := by
      rintro out s rfl
      simp only [prepare, toCanonic, bind, Option.bind_eq_some_iff,
        if_neg (show ¬ w.length = 0 from fun h0 => hne (List.length_eq_zero_iff.1 h0))] at hp
      obtain ⟨c, hc, hp⟩ := hp
      cases c with
      | none => simp at hp
      | some c =>
        obtain ⟨o, t⟩ := c
        simp only at hp
        split at hp
        · simp at hp
        · split at hp
          · simp at hp
          · simp only [pure, Option.some.injEq, Except.ok.injEq, Prod.mk.injEq] at hp
            rw [hc, hp.1, hp.2]
    cases pr with
    | error e =>
      exfalso
      simp only [pure, Option.some.injEq] at hacc
      subst hacc
      simp only [prepare, bind, Option.bind_eq_some_iff] at hp
      obtain ⟨c, -, hp⟩ := hp
      cases c with
      | none => simp [WORDBUFF_FAILED] at hp
      | some c =>
        simp only at hp
        split at hp
        · simp at hp
        · split at hp
          · simp at hp
          · simp at hp
    | ok z =>
      obtain ⟨out, s⟩ := z
      obtain ⟨g1, -, g3⟩ := capGet_some engTab engTab_ok formLength (by decide) w out s (hget out s rfl)
      refine ⟨g1, ?_⟩
      -- if the scheme is good for no demand, no collector is ever called
      by_contra h3
      have hbad : ∀ m, isGood (s % 65536) m = false := by
        intro m
        by_contra hm
        exact h3 (g3 m (by simpa using hm))
      simp only [Option.bind_eq_some_iff] at hacc
      obtain ⟨z, hz1, hz2⟩ := hacc
      obtain ⟨l, ok, ht⟩ := scanEntries_traced (engBuild as).images ⟨out ++ 0 :: junk, s >>> 16⟩
      have h1 := ht (fun x : EntryCall => matchClass (engBuild as).images (s % 65536) d anywayOk x.1 x.2.1 x.2.2.1 x.2.2.2) ()
      have h2 : ∀ (l : List EntryCall), runTrace (fun x : EntryCall =>
          matchClass (engBuild as).images (s % 65536) d anywayOk x.1 x.2.1 x.2.2.1 x.2.2.2) l ok () = none ∨
          runTrace (fun x : EntryCall =>
          matchClass (engBuild as).images (s % 65536) d anywayOk x.1 x.2.1 x.2.2.1 x.2.2.2) l ok () = some (none, ()) := by
        intro l
        induction l with
        | nil => cases ok <;> simp [runTrace]
        | cons x l ih =>
          simp only [runTrace]
          have : matchClass (engBuild as).images (s % 65536) d anywayOk x.1 x.2.1 x.2.2.1 x.2.2.2 () = none ∨
              matchClass (engBuild as).images (s % 65536) d anywayOk x.1 x.2.1 x.2.2.1 x.2.2.2 () = some (none, ()) := by
            simp only [matchClass, bind]
            cases loadStem (engBuild as).images.classmap x.2.1 with
            | none => left; rfl
            | some st =>
              right
              simp only [Option.bind_some, hbad, Bool.not_false, Bool.and_true]
              rw [if_pos (by simpa using hd)]; rfl
          rcases this with h0 | h0 <;> rw [h0]
          · left; rfl
          · exact ih
      have hsw : scanWord (engBuild as).images out junk s d anywayOk () = some z := hz1
      have : scanWord (engBuild as).images out junk s d anywayOk ()
          = runTrace (fun x : EntryCall => matchClass (engBuild as).images (s % 65536) d anywayOk x.1 x.2.1 x.2.2.1 x.2.2.2) l ok () := h1
      rw [this] at hsw
      rcases h2 l with h2 | h2
      · rw [h2] at hsw; simp at hsw
      · rw [h2] at hsw
        simp only [Option.some.injEq] at hsw
        rw [← hsw] at hz2
        simp at hz2
  obtain ⟨hlen, h3⟩ := hgood
  obtain ⟨V, hV⟩ := scanOf_exists h (w.map engTab.lower) (by simpa using hlen)
  rw [checkWord_heard w junk d hne hlen (by omega) hV] at hacc
  rw [checkWord_heard w junk' d' hne hlen (by omega) hV]
  have hsub : heard V w d ≠ [] := by
    intro h0; rw [if_pos h0] at hacc; simp at hacc
  rw [if_neg]
  obtain ⟨q, hq⟩ := List.exists_mem_of_ne_nil _ hsub
  refine List.ne_nil_of_mem (a := q) ?_
  simp only [heard, List.mem_filter, Bool.and_eq_true] at hq ⊢
  refine ⟨hq.1, ?_, hq.2.2⟩
  simp [admits, hd']

/-- The hypotheses are met: "Paris" in the sample; and ignoring capitals really adds: "paris". -/
example : checkWord (engBuild engSample).images [] [80, 97, 114, 105, 115] 0 = some 1 ∧
    checkWord (engBuild engSample).images [] [112, 97, 114, 105, 115] 0 = some 0 ∧
    checkWord (engBuild engSample).images [] [112, 97, 114, 105, 115] 2 = some 1 := by decide +kernel

/-! ### C13 -/

/-- The answer of the preparation with capitals ignored: it depends on the lower-cased word only. -/
theorem prepare_ignoring (w : List Byte) (dwsets : Nat) (hd : dwsets &&& 2 ≠ 0) (hparts : (wordParts engTab w).length ≤ 8) :
    (w = [] ∧ prepare w dwsets = some (.error 0)) ∨
    (48 ≤ w.length ∧ prepare w dwsets = some (.error WORDBUFF_FAILED)) ∨
    (w ≠ [] ∧ w.length < 48 ∧ ∃ s, prepare w dwsets = some (.ok (w.map engTab.lower, s)) ∧ s >>> 16 = w.length) := by
  by_cases hne : w = []
  · left; subst hne; simp [prepare, toCanonic]
  · right
    by_cases hlen : w.length < 48
    · right
      refine ⟨hne, hlen, ?_⟩
      obtain ⟨s, h1, h2, h3, -, -⟩ := capGet_summary engTab engTab_ok formLength w hne hlen (by decide) hparts
      refine ⟨s, ?_, h3⟩
      simp only [prepare, toCanonic, if_neg (show ¬ w.length = 0 from fun h0 => hne (List.length_eq_zero_iff.1 h0)), h1,
        bind, Option.bind_some, pure, if_neg h2, sfIgnoreCapitals]
      rw [if_neg (by simp [hd])]
    · left
      refine ⟨by omega, ?_⟩
      have := C15_too_long engTab engTab_ok formLength w (by simp only [formLength]; omega) (by omega)
      simp only [prepare, toCanonic, if_neg (show ¬ w.length = 0 from fun h0 => hne (List.length_eq_zero_iff.1 h0)), this,
        bind, Option.bind_some, pure]

/-- With capitals ignored the scheme of the word is not looked at. -/
theorem scanWord_ignoring {σ ρ : Type} (im : Images) (lw junk : List Byte) (s s' dwsets : Nat) (hd : dwsets &&& 2 ≠ 0)
    (hs : s >>> 16 = s' >>> 16) (target : Target σ ρ) (st : σ) :
    scanWord im lw junk s dwsets target st = scanWord im lw junk s' dwsets target st := by
  have : matchClass im (s % 65536) dwsets target = matchClass im (s' % 65536) dwsets target := by
    funext a b c d st
    simp [matchClass, hd]
  simp only [scanWord, this, hs]

/-- **C13** with capitals ignored, two words of up to eight parts that differ only in letter case are treated
alike on any dictionary images: the same answer from CheckWord, the same number and the same buffers from
Lemmatize and from FindForms.
Missing: words of nine parts and more, where the claim is false (`C13_counterexample`). -/
theorem C13_case_irrelevant_partial (im : Images) (junk w w' : List Byte) (dwsets : Nat) (hd : dwsets &&& 2 ≠ 0)
    (hw : w.map engTab.lower = w'.map engTab.lower)
    (h8 : (wordParts engTab w).length ≤ 8) (h8' : (wordParts engTab w').length ≤ 8) :
    checkWord im junk w dwsets = checkWord im junk w' dwsets ∧
    (∀ L B G, lemmatize im junk w L B G dwsets = lemmatize im junk w' L B G dwsets) ∧
    (∀ B i, findForms im junk B w i dwsets = findForms im junk B w' i dwsets) := by
  have hl : w.length = w'.length := by simpa using congrArg List.length hw
  have key : prepare w dwsets = prepare w' dwsets ∨
      ∃ lw s s', prepare w dwsets = some (.ok (lw, s)) ∧ prepare w' dwsets = some (.ok (lw, s')) ∧ s >>> 16 = s' >>> 16 := by
    rcases prepare_ignoring w dwsets hd h8 with ⟨a, b⟩ | ⟨a, b⟩ | ⟨a, a', s, b, c⟩ <;>
    rcases prepare_ignoring w' dwsets hd h8' with ⟨a2, b2⟩ | ⟨a2, b2⟩ | ⟨a2, a2', s2, b2, c2⟩
    · left; rw [b, b2]
    · subst a; simp at hl; omega
    · subst a; simp at hl; exact absurd (List.length_eq_zero_iff.1 hl.symm) a2
    · subst a2; rw [List.length_nil] at hl; omega
    · left; rw [b, b2]
    · omega
    · subst a2; simp at hl; exact absurd hl a
    · omega
    · right; exact ⟨_, s, s2, b, by rw [b2, hw], by omega⟩
  rcases key with key | ⟨lw, s, s', k1, k2, k3⟩
  · simp only [checkWord, lemmatize, findForms, key, implies_true, and_self]
  · refine ⟨?_, ?_, ?_⟩
    · simp only [checkWord, k1, k2, bind, Option.bind_some, scanWord_ignoring im lw junk s s' dwsets hd k3]
    · intro L B G
      simp only [lemmatize, k1, k2, bind, Option.bind_some, scanWord_ignoring im lw junk s s' dwsets hd k3]
    · intro B i
      simp only [findForms, k1, k2, bind, Option.bind_some, scanWord_ignoring im lw junk s s' dwsets hd k3]

/-- An uninflected word of nine parts, "a-a-a-a-a-a-a-a-a". -/
def nineParts : Article := ⟨(List.replicate 8 [97, 45]).flatten ++ [97], [], 3, [], 9⟩

/-- **C13** refuted for nine parts: with capitals ignored "a-a-a-a-a-a-a-a-a" is found, but with a capital in
the last part ("…-A") it is not. -/
theorem C13_counterexample :
    checkWord (engBuild [nineParts]).images (List.replicate 30 0) ((List.replicate 8 [97, 45]).flatten ++ [97]) 2 = some 1 ∧
    checkWord (engBuild [nineParts]).images (List.replicate 30 0) ((List.replicate 8 [97, 45]).flatten ++ [65]) 2 = some 0 := by
  decide +kernel

/-- The hypotheses are met: "bROTHEr-In-LAW". -/
example : checkWord (engBuild engSample).images [] [98, 82, 79, 84, 72, 69, 114, 45, 73, 110, 45, 76, 65, 87] 2
    = checkWord (engBuild engSample).images [] [98, 114, 111, 116, 104, 101, 114, 45, 105, 110, 45, 108, 97, 119] 2 :=
  (C13_case_irrelevant_partial _ [] _ _ 2 (by decide) (by decide +kernel) (by decide +kernel) (by decide +kernel)).1

/-! ### C14 -/

/-- **C14** a null pointer, whatever the length passed with it, and a word of length zero are the empty word,
for which CheckWord, Lemmatize and FindForms return 0 and write nothing. -/
theorem C14_empty (im : Images) (junk : List Byte) (dwsets : Nat) :
    (∀ cch, argBytes none cch = some []) ∧ (∀ m, argBytes (some m) (some 0) = some []) ∧
    (∀ m, argBytes (some (0 :: m)) none = some []) ∧
    checkWord im junk [] dwsets = some 0 ∧
    (∀ L B G, lemmatize im junk [] L B G dwsets = some (0, ⟨L, 0, ⟨B, 0⟩, G, 0, 0⟩)) ∧
    (∀ B i, B ≠ [] → findForms im junk (some B) [] i dwsets = some (0, some B)) := by
  refine ⟨fun _ => rfl, fun m => by simp [argBytes], fun m => by simp [argBytes], ?_, ?_, ?_⟩
  · simp [checkWord, prepare, toCanonic]
  · intro L B G; simp [lemmatize, prepare, toCanonic]
  · intro B i hB
    have : ¬ B.length = 0 := fun h0 => hB (List.length_eq_zero_iff.1 h0)
    simp [findForms, prepare, toCanonic, this]

/-- **C14** a word of 48 bytes and more (of up to sixteen parts) is answered with WORDBUFF_FAILED, nothing is
written.  Missing: more than sixteen parts, where the code shifts out of range (`C15_counterexample_shift`). -/
theorem C14_too_long_partial (im : Images) (junk w : List Byte) (dwsets : Nat) (hlen : 48 ≤ w.length)
    (hparts : (wordParts engTab w).length ≤ 16) :
    checkWord im junk w dwsets = some WORDBUFF_FAILED ∧
    (∀ L B G, lemmatize im junk w L B G dwsets = some (WORDBUFF_FAILED, ⟨L, 0, ⟨B, 0⟩, G, 0, 0⟩)) ∧
    (∀ B i, B ≠ [] → findForms im junk (some B) w i dwsets = some (WORDBUFF_FAILED, some B)) := by
  have hp : prepare w dwsets = some (.error WORDBUFF_FAILED) := by
    have := C15_too_long engTab engTab_ok formLength w hlen hparts
    simp only [prepare, toCanonic, if_neg (show ¬ w.length = 0 by omega), this, bind, Option.bind_some, pure]
  refine ⟨by simp [checkWord, hp], fun L B G => by simp [lemmatize, hp], fun B i hB => ?_⟩
  have : ¬ B.length = 0 := fun h0 => hB (List.length_eq_zero_iff.1 h0)
  simp [findForms, hp, this]

/-- **C14** whatever the number of parts, a word of 48 bytes and more is never found: the only defined answer
is WORDBUFF_FAILED. -/
theorem C14_too_long_never_found (im : Images) (junk w : List Byte) (dwsets : Nat) (hlen : 48 ≤ w.length) (r : Int)
    (h : checkWord im junk w dwsets = some r) : r = WORDBUFF_FAILED := by
  simp only [checkWord, prepare, toCanonic, if_neg (show ¬ w.length = 0 by omega), bind, Option.bind_eq_some_iff] at h
  obtain ⟨pr, ⟨c, hc, hp⟩, h⟩ := h
  cases c with
  | none =>
    simp only [pure, Option.some.injEq] at hp
    subst hp
    simpa using h.symm
  | some c =>
    obtain ⟨out, s⟩ := c
    have := (capGet_some engTab engTab_ok formLength (by decide) w out s hc).1
    simp only [formLength] at this
    omega

/-- **C14** a word with a part that is none of small, capitalized, all capitals (for instance with a byte that
is no letter) is answered with 0 when capitals matter, and nothing is written; a last part may be empty. -/
theorem C14_ill_formed (im : Images) (junk w : List Byte) (dwsets : Nat) (hd : dwsets &&& 2 = 0) (hlen : w.length < 48)
    (h16 : (wordParts engTab w).length ≤ 16) (p : List Byte)
    (hp : p ∈ (if (wordParts engTab w).getLast? = some [] then (wordParts engTab w).dropLast else wordParts engTab w))
    (hk : partKind engTab p = none) :
    checkWord im junk w dwsets = some 0 ∧
    (∀ L B G, lemmatize im junk w L B G dwsets = some (0, ⟨L, 0, ⟨B, 0⟩, G, 0, 0⟩)) ∧
    (∀ B i, B ≠ [] → findForms im junk (some B) w i dwsets = some (0, some B)) := by
  have hpr : prepare w dwsets = some (.error 0) := by
    by_cases hne : w = []
    · subst hne; simp [prepare, toCanonic]
    · have hcp := checkedParts_cons engTab w hne
      rw [← hcp] at hp
      obtain ⟨sch, h1, -⟩ := (capGet_value engTab engTab_ok formLength w (by
        rw [hcp]; split
        · rw [List.length_dropLast]; omega
        · exact h16)).2 hlen
      have hb : ((checkedParts engTab w).all fun p => (partKind engTab p).isSome) = false := by
        rw [Bool.eq_false_iff, Ne, List.all_eq_true]
        intro hall
        have := hall p hp
        rw [hk] at this; simp at this
      rw [hb] at h1
      generalize hx : (w.length <<< 16 % 2 ^ 32 ||| (wordParts engTab w).length <<< 8 % 2 ^ 32 |||
          if false = true then sch else 0xff) = x at h1
      simp only [prepare, toCanonic, if_neg (show ¬ w.length = 0 from fun h0 => hne (List.length_eq_zero_iff.1 h0)), h1,
        bind, Option.bind_some, pure]
      have h255 : x % 256 = 255 := by
        rw [← hx, if_neg (by simp), show (256 : Nat) = 2 ^ 8 from rfl, Nat.or_mod_two_pow, Nat.or_mod_two_pow]
        have e1 : w.length <<< 16 % 2 ^ 32 % 2 ^ 8 = 0 := by rw [Nat.shiftLeft_eq]; omega
        have e2 : (wordParts engTab w).length <<< 8 % 2 ^ 32 % 2 ^ 8 = 0 := by rw [Nat.shiftLeft_eq]; omega
        rw [e1, e2]; decide
      split
      · rfl
      · rw [if_pos (by rw [Bool.and_eq_true, decide_eq_true_eq, decide_eq_true_eq]; exact ⟨h255, hd⟩)]
  refine ⟨by simp [checkWord, hpr], fun L B G => by simp [lemmatize, hpr], fun B i hB => ?_⟩
  have : ¬ B.length = 0 := fun h0 => hB (List.length_eq_zero_iff.1 h0)
  simp [findForms, hpr, this]

/-- The hypotheses are met: "paRis" and "par1s". -/
example : checkWord (engBuild engSample).images [] [112, 97, 82, 105, 115] 0 = some 0 :=
  (C14_ill_formed _ [] _ 0 (by decide) (by decide) (by decide +kernel) [112, 97, 82, 105, 115] (by decide +kernel)
    (by decide +kernel)).1
example : checkWord (engBuild engSample).images [] [112, 97, 114, 49, 115] 0 = some 0 :=
  (C14_ill_formed _ [] _ 0 (by decide) (by decide) (by decide +kernel) [112, 97, 114, 49, 115] (by decide +kernel)
    (by decide +kernel)).1
example : checkWord (engBuild engSample).images [] (List.replicate 48 97) 0 = some (-4) :=
  (C14_too_long_partial _ [] _ 0 (by decide) (by decide +kernel)).1

end Libmorph
