import Verif.Props.C11
import Verif.Props.C44
/-
C12, C13, C14 for Russian: ignoring capitals, malformed words.
-/
namespace Libmorph

/-- CheckWord's collector. -/
def rusAnyway : RusTarget Unit Int := fun _ _ _ _ _ s => some (some 1, s)

/-- **C12** a word that is accepted under some settings is accepted with capitals ignored: every Russian dictionary. -/
theorem C12_rus_ignoring_adds {A : List Byte} {D : RusDict} {st : RusState} (h : RusOk A D st) (w junk junk' : List Byte) (d d' : Nat)
    (hd : d &&& 2 = 0) (hd' : d' &&& 2 ≠ 0) (hacc : rusCheck (st.images D.mtab) junk w d = some 1) :
    rusCheck (st.images D.mtab) junk' w d' = some 1 := by
  have hne : w ≠ [] := by
    rintro rfl
    simp [rusCheck, rusPrepare, rusCanonic] at hacc
  -- the word was analysed and found good for some demand
  have hgood : w.length < 48 ∧ (wordParts rusTab w).length ≤ 3 := by
    simp only [rusCheck, bind, Option.bind_eq_some_iff] at hacc
    obtain ⟨pr, hp, hacc⟩ := hacc
    have hget : ∀ out s, pr = .ok (out, s) → capGet rusTab formLength w = some (some (out, s)) := by
      rintro out s rfl
      simp only [rusPrepare, rusCanonic, bind, Option.bind_eq_some_iff,
        if_neg (show ¬ w.length = 0 from fun h0 => hne (List.length_eq_zero_iff.1 h0))] at hp
      obtain ⟨c, hc, hp⟩ := hp
      cases c with
      | none => simp at hp
      | some c =>
        obtain ⟨o, t⟩ := c
        simp only at hp
        split at hp
        · simp at hp
        · split at hp
          · simp at hp
          · simp only [pure, Option.some.injEq, Except.ok.injEq, Prod.mk.injEq] at hp
            rw [hc, hp.1, hp.2]
    cases pr with
    | error e =>
      exfalso
      simp only [pure, Option.some.injEq] at hacc
      subst hacc
      simp only [rusPrepare, bind, Option.bind_eq_some_iff] at hp
      obtain ⟨c, -, hp⟩ := hp
      cases c with
      | none => simp [WORDBUFF_FAILED] at hp
      | some c =>
        simp only at hp
        split at hp
        · simp at hp
        · split at hp
          · simp at hp
          · simp at hp
    | ok z =>
      obtain ⟨out, s⟩ := z
      obtain ⟨g1, -, g3⟩ := capGet_some rusTab rusTab_ok formLength (by decide) w out s (hget out s rfl)
      refine ⟨g1, ?_⟩
      -- if the scheme is good for no demand, no collector is ever called
      by_contra h3
      have hbad : ∀ m, isGood (s % 65536) m = false := by
        intro m
        by_contra hm
        exact h3 (g3 m (by simpa using hm))
      simp only [Option.bind_eq_some_iff] at hacc
      obtain ⟨z, hz1, hz2⟩ := hacc
      obtain ⟨l, ok, ht⟩ := scanEntries_traced ⟨(st.images D.mtab).stemtree, [], [], []⟩ ⟨out ++ 0 :: junk, s >>> 16⟩
      have h1 := ht (fun x : EntryCall => rusMatch (st.images D.mtab) (s % 65536) d rusAnyway x.1 x.2.1 x.2.2.1 x.2.2.2) ()
      have h2 : ∀ (l : List EntryCall), runTrace (fun x : EntryCall =>
          rusMatch (st.images D.mtab) (s % 65536) d rusAnyway x.1 x.2.1 x.2.2.1 x.2.2.2) l ok () = none ∨
          runTrace (fun x : EntryCall =>
          rusMatch (st.images D.mtab) (s % 65536) d rusAnyway x.1 x.2.1 x.2.2.1 x.2.2.2) l ok () = some (none, ()) := by
        intro l
        induction l with
        | nil => cases ok <;> simp [runTrace]
        | cons x l ih =>
          simp only [runTrace]
          have : rusMatch (st.images D.mtab) (s % 65536) d rusAnyway x.1 x.2.1 x.2.2.1 x.2.2.2 () = none ∨
              rusMatch (st.images D.mtab) (s % 65536) d rusAnyway x.1 x.2.1 x.2.2.1 x.2.2.2 () = some (none, ()) := by
            simp only [rusMatch, bind]
            cases loadRus (st.images D.mtab).classmap x.2.1 with
            | none => left; rfl
            | some st =>
              right
              simp only [Option.bind_some, hbad, Bool.not_false, Bool.and_true]
              rw [if_pos (by simpa using hd)]; rfl
          rcases this with h0 | h0 <;> rw [h0]
          · left; rfl
          · exact ih
      have hsw : rusScan (st.images D.mtab) out junk s d rusAnyway () = some z := hz1
      have : rusScan (st.images D.mtab) out junk s d rusAnyway ()
          = runTrace (fun x : EntryCall => rusMatch (st.images D.mtab) (s % 65536) d rusAnyway x.1 x.2.1 x.2.2.1 x.2.2.2) l ok () := h1
      rw [this] at hsw
      rcases h2 l with h2 | h2
      · rw [h2] at hsw; simp at hsw
      · rw [h2] at hsw
        simp only [Option.some.injEq] at hsw
        rw [← hsw] at hz2
        simp at hz2
  obtain ⟨hlen, h3⟩ := hgood
  obtain ⟨V, hV⟩ := rusScanOf_exists h (w.map rusTab.lower) (by simpa using hlen)
  rw [rusCheck_heard w junk d hne hlen (by omega) hV] at hacc
  rw [rusCheck_heard w junk' d' hne hlen (by omega) hV]
  have hsub : rusHeard V w d ≠ [] := by
    intro h0; rw [if_pos h0] at hacc; simp at hacc
  rw [if_neg]
  obtain ⟨q, hq⟩ := List.exists_mem_of_ne_nil _ hsub
  refine List.ne_nil_of_mem (a := q) ?_
  simp only [rusHeard, List.mem_filter] at hq ⊢
  exact ⟨hq.1, by simp [rusAdmits, hd']⟩

/-- The answer of the preparation with capitals ignored: it depends on the lower-cased word only. -/
theorem rusPrepare_ignoring (w : List Byte) (dwsets : Nat) (hd : dwsets &&& 2 ≠ 0) (hparts : (wordParts rusTab w).length ≤ 8) :
    (w = [] ∧ rusPrepare w dwsets = some (.error 0)) ∨
    (48 ≤ w.length ∧ rusPrepare w dwsets = some (.error WORDBUFF_FAILED)) ∨
    (w ≠ [] ∧ w.length < 48 ∧ ∃ s, rusPrepare w dwsets = some (.ok (w.map rusTab.lower, s)) ∧ s >>> 16 = w.length) := by
  by_cases hne : w = []
  · left; subst hne; simp [rusPrepare, rusCanonic]
  · right
    by_cases hlen : w.length < 48
    · right
      refine ⟨hne, hlen, ?_⟩
      obtain ⟨s, h1, h2, h3, -, -⟩ := capGet_summary rusTab rusTab_ok formLength w hne hlen (by decide) hparts
      refine ⟨s, ?_, h3⟩
      simp only [rusPrepare, rusCanonic, if_neg (show ¬ w.length = 0 from fun h0 => hne (List.length_eq_zero_iff.1 h0)), h1,
        bind, Option.bind_some, pure, if_neg h2, sfIgnoreCapitals]
      rw [if_neg (by simp [hd])]
    · left
      refine ⟨by omega, ?_⟩
      have := C15_too_long rusTab rusTab_ok formLength w (by simp only [formLength]; omega) (by omega)
      simp only [rusPrepare, rusCanonic, if_neg (show ¬ w.length = 0 from fun h0 => hne (List.length_eq_zero_iff.1 h0)), this,
        bind, Option.bind_some, pure]

/-- With capitals ignored the scheme of the word is not looked at. -/
theorem rusScan_ignoring {σ ρ : Type} (im : RusImages) (lw junk : List Byte) (s s' dwsets : Nat) (hd : dwsets &&& 2 ≠ 0)
    (hs : s >>> 16 = s' >>> 16) (target : RusTarget σ ρ) (st : σ) :
    rusScan im lw junk s dwsets target st = rusScan im lw junk s' dwsets target st := by
  have : rusMatch im (s % 65536) dwsets target = rusMatch im (s' % 65536) dwsets target := by
    funext a b c d st
    simp [rusMatch, hd]
  simp only [rusScan, this, hs]

/-- **C13** with capitals ignored, two words of up to eight parts that differ only in letter case are treated
alike on any dictionary images: the same answer from CheckWord, the same number and the same buffers from
Lemmatize and from FindForms.
Missing: words of nine parts and more, where the claim is false (`C13_counterexample`). -/
theorem C13_rus_case_irrelevant_partial (im : RusImages) (junk w w' : List Byte) (dwsets : Nat) (hd : dwsets &&& 2 ≠ 0)
    (hw : w.map rusTab.lower = w'.map rusTab.lower)
    (h8 : (wordParts rusTab w).length ≤ 8) (h8' : (wordParts rusTab w').length ≤ 8) :
    rusCheck im junk w dwsets = rusCheck im junk w' dwsets ∧
    (∀ L B G, rusLemmatize im junk w L B G dwsets = rusLemmatize im junk w' L B G dwsets) ∧
    (∀ B i, rusFindForms im junk B w i dwsets = rusFindForms im junk B w' i dwsets) := by
  have hl : w.length = w'.length := by simpa using congrArg List.length hw
  have key : rusPrepare w dwsets = rusPrepare w' dwsets ∨
      ∃ lw s s', rusPrepare w dwsets = some (.ok (lw, s)) ∧ rusPrepare w' dwsets = some (.ok (lw, s')) ∧ s >>> 16 = s' >>> 16 := by
    rcases rusPrepare_ignoring w dwsets hd h8 with ⟨a, b⟩ | ⟨a, b⟩ | ⟨a, a', s, b, c⟩ <;>
    rcases rusPrepare_ignoring w' dwsets hd h8' with ⟨a2, b2⟩ | ⟨a2, b2⟩ | ⟨a2, a2', s2, b2, c2⟩
    · left; rw [b, b2]
    · subst a; simp at hl; omega
    · subst a; simp at hl; exact absurd (List.length_eq_zero_iff.1 hl.symm) a2
    · subst a2; rw [List.length_nil] at hl; omega
    · left; rw [b, b2]
    · omega
    · subst a2; simp at hl; exact absurd hl a
    · omega
    · right; exact ⟨_, s, s2, b, by rw [b2, hw], by omega⟩
  rcases key with key | ⟨lw, s, s', k1, k2, k3⟩
  · simp only [rusCheck, rusLemmatize, rusFindForms, key, implies_true, and_self]
  · refine ⟨?_, ?_, ?_⟩
    · simp only [rusCheck, k1, k2, bind, Option.bind_some, rusScan_ignoring im lw junk s s' dwsets hd k3]
    · intro L B G
      simp only [rusLemmatize, k1, k2, bind, Option.bind_some, rusScan_ignoring im lw junk s s' dwsets hd k3]
    · intro B i
      simp only [rusFindForms, k1, k2, bind, Option.bind_some, rusScan_ignoring im lw junk s s' dwsets hd k3]

/-- **C14** a null pointer, whatever the length passed with it, and a word of length zero are the empty word,
for which CheckWord, Lemmatize and FindForms return 0 and write nothing. -/
theorem C14_rus_empty (im : RusImages) (junk : List Byte) (dwsets : Nat) :
    (∀ cch, argBytes none cch = some []) ∧ (∀ m, argBytes (some m) (some 0) = some []) ∧
    (∀ m, argBytes (some (0 :: m)) none = some []) ∧
    rusCheck im junk [] dwsets = some 0 ∧
    (∀ L B G, rusLemmatize im junk [] L B G dwsets = some (0, ⟨L, 0, ⟨B, 0⟩, G, 0, 0⟩)) ∧
    (∀ B i, B ≠ [] → rusFindForms im junk (some B) [] i dwsets = some (0, some B)) := by
  refine ⟨fun _ => rfl, fun m => by simp [argBytes], fun m => by simp [argBytes], ?_, ?_, ?_⟩
  · simp [rusCheck, rusPrepare, rusCanonic]
  · intro L B G; simp [rusLemmatize, rusPrepare, rusCanonic]
  · intro B i hB
    have : ¬ B.length = 0 := fun h0 => hB (List.length_eq_zero_iff.1 h0)
    simp [rusFindForms, rusPrepare, rusCanonic, this]

/-- **C14** a word of 48 bytes and more (of up to sixteen parts) is answered with WORDBUFF_FAILED, nothing is
written.  Missing: more than sixteen parts, where the code shifts out of range (`C15_counterexample_shift`). -/
theorem C14_rus_too_long_partial (im : RusImages) (junk w : List Byte) (dwsets : Nat) (hlen : 48 ≤ w.length)
    (hparts : (wordParts rusTab w).length ≤ 16) :
    rusCheck im junk w dwsets = some WORDBUFF_FAILED ∧
    (∀ L B G, rusLemmatize im junk w L B G dwsets = some (WORDBUFF_FAILED, ⟨L, 0, ⟨B, 0⟩, G, 0, 0⟩)) ∧
    (∀ B i, B ≠ [] → rusFindForms im junk (some B) w i dwsets = some (WORDBUFF_FAILED, some B)) := by
  have hp : rusPrepare w dwsets = some (.error WORDBUFF_FAILED) := by
    have := C15_too_long rusTab rusTab_ok formLength w hlen hparts
    simp only [rusPrepare, rusCanonic, if_neg (show ¬ w.length = 0 by omega), this, bind, Option.bind_some, pure]
  refine ⟨by simp [rusCheck, hp], fun L B G => by simp [rusLemmatize, hp], fun B i hB => ?_⟩
  have : ¬ B.length = 0 := fun h0 => hB (List.length_eq_zero_iff.1 h0)
  simp [rusFindForms, hp, this]

/-- **C14** whatever the number of parts, a word of 48 bytes and more is never found: the only defined answer
is WORDBUFF_FAILED. -/
theorem C14_rus_too_long_never_found (im : RusImages) (junk w : List Byte) (dwsets : Nat) (hlen : 48 ≤ w.length) (r : Int)
    (h : rusCheck im junk w dwsets = some r) : r = WORDBUFF_FAILED := by
  simp only [rusCheck, rusPrepare, rusCanonic, if_neg (show ¬ w.length = 0 by omega), bind, Option.bind_eq_some_iff] at h
  obtain ⟨pr, ⟨c, hc, hp⟩, h⟩ := h
  cases c with
  | none =>
    simp only [pure, Option.some.injEq] at hp
    subst hp
    simpa using h.symm
  | some c =>
    obtain ⟨out, s⟩ := c
    have := (capGet_some rusTab rusTab_ok formLength (by decide) w out s hc).1
    simp only [formLength] at this
    omega

/-- **C14** a word with a part that is none of small, capitalized, all capitals (for instance with a byte that
is no letter) is answered with 0 when capitals matter, and nothing is written; a last part may be empty. -/
theorem C14_rus_ill_formed (im : RusImages) (junk w : List Byte) (dwsets : Nat) (hd : dwsets &&& 2 = 0) (hlen : w.length < 48)
    (h16 : (wordParts rusTab w).length ≤ 16) (p : List Byte)
    (hp : p ∈ (if (wordParts rusTab w).getLast? = some [] then (wordParts rusTab w).dropLast else wordParts rusTab w))
    (hk : partKind rusTab p = none) :
    rusCheck im junk w dwsets = some 0 ∧
    (∀ L B G, rusLemmatize im junk w L B G dwsets = some (0, ⟨L, 0, ⟨B, 0⟩, G, 0, 0⟩)) ∧
    (∀ B i, B ≠ [] → rusFindForms im junk (some B) w i dwsets = some (0, some B)) := by
  have hpr : rusPrepare w dwsets = some (.error 0) := by
    by_cases hne : w = []
    · subst hne; simp [rusPrepare, rusCanonic]
    · have hcp := checkedParts_cons rusTab w hne
      rw [← hcp] at hp
      obtain ⟨sch, h1, -⟩ := (capGet_value rusTab rusTab_ok formLength w (by
        rw [hcp]; split
        · rw [List.length_dropLast]; omega
        · exact h16)).2 hlen
      have hb : ((checkedParts rusTab w).all fun p => (partKind rusTab p).isSome) = false := by
        rw [Bool.eq_false_iff, Ne, List.all_eq_true]
        intro hall
        have := hall p hp
        rw [hk] at this; simp at this
      rw [hb] at h1
      generalize hx : (w.length <<< 16 % 2 ^ 32 ||| (wordParts rusTab w).length <<< 8 % 2 ^ 32 |||
          if false = true then sch else 0xff) = x at h1
      simp only [rusPrepare, rusCanonic, if_neg (show ¬ w.length = 0 from fun h0 => hne (List.length_eq_zero_iff.1 h0)), h1,
        bind, Option.bind_some, pure]
      have h255 : x % 256 = 255 := by
        rw [← hx, if_neg (by simp), show (256 : Nat) = 2 ^ 8 from rfl, Nat.or_mod_two_pow, Nat.or_mod_two_pow]
        have e1 : w.length <<< 16 % 2 ^ 32 % 2 ^ 8 = 0 := by rw [Nat.shiftLeft_eq]; omega
        have e2 : (wordParts rusTab w).length <<< 8 % 2 ^ 32 % 2 ^ 8 = 0 := by rw [Nat.shiftLeft_eq]; omega
        rw [e1, e2]; decide
      split
      · rfl
      · rw [if_pos (by rw [Bool.and_eq_true, decide_eq_true_eq, decide_eq_true_eq]; exact ⟨h255, hd⟩)]
  refine ⟨by simp [rusCheck, hpr], fun L B G => by simp [rusLemmatize, hpr], fun B i hB => ?_⟩
  have : ¬ B.length = 0 := fun h0 => hB (List.length_eq_zero_iff.1 h0)
  simp [rusFindForms, hpr, this]

/-! ### The hypotheses are met; the limit of C13 -/

/-- "Иван" is found, and with capitals ignored "иван", too, which is not otherwise. -/
example : rusCheck (rusSampleState.images rusSample.mtab) [] [200, 226, 224, 237] 2 = some 1 :=
  C12_rus_ignoring_adds rusSample_ok _ [] [] 0 2 (by decide) (by decide) (by decide +kernel)
example : rusCheck (rusSampleState.images rusSample.mtab) [] [232, 226, 224, 237] 0 = some 0 ∧
    rusCheck (rusSampleState.images rusSample.mtab) [] [232, 226, 224, 237] 2 = some 1 := by decide +kernel

/-- "иВАн" and "Иван". -/
example : rusCheck (rusSampleState.images rusSample.mtab) [] [232, 194, 192, 237] 2
    = rusCheck (rusSampleState.images rusSample.mtab) [] [200, 226, 224, 237] 2 :=
  (C13_rus_case_irrelevant_partial _ [] _ _ 2 (by decide) (by decide +kernel) (by decide +kernel) (by decide +kernel)).1

/-- "иВан", and 48 letters. -/
example : rusCheck (rusSampleState.images rusSample.mtab) [] [232, 194, 224, 237] 0 = some 0 :=
  (C14_rus_ill_formed _ [] _ 0 (by decide) (by decide) (by decide +kernel) [232, 194, 224, 237] (by decide +kernel) (by decide +kernel)).1
example : rusCheck (rusSampleState.images rusSample.mtab) [] (List.replicate 48 224) 0 = some (-4) :=
  (C14_rus_too_long_partial _ [] _ 0 (by decide) (by decide +kernel)).1

/-- A dictionary with the word "а-а-а-а-а-а-а-а-а". -/
def rusNine : Option RusState := rusBuild rusSampleFlex [0] [⟨(List.replicate 8 [224, 45]).flatten ++ [224], 54, 0, 0, [], 9⟩]

/-- **C13** refuted for nine parts, as in English: with a capital in the last part the word is not found. -/
theorem C13_rus_counterexample :
    (rusNine.bind fun st => rusCheck (st.images [0]) (List.replicate 30 0) ((List.replicate 8 [224, 45]).flatten ++ [224]) 2) = some 1 ∧
    (rusNine.bind fun st => rusCheck (st.images [0]) (List.replicate 30 0) ((List.replicate 8 [224, 45]).flatten ++ [192]) 2) = some 0 := by
  decide +kernel

end Libmorph
