import Verif.Lemmas.RusApi
import Verif.Spec.RusSample
/-
C43: the Russian CheckWord accepts exactly the forms of the dictionary.
-/
namespace Libmorph
variable {A : List Byte} {D : RusDict} {st : RusState}

/-- The full statement: for every dictionary within the limits and every word of at most 47 letters and 8
parts, CheckWord answers 1 if the word is an admitted form of some article, and 0 otherwise. -/
def C43_full : Prop := ∀ (A : List Byte) (D : RusDict) (st : RusState), RusOk A D st → ∀ (w junk : List Byte) (dwsets : Nat),
  w ≠ [] → w.length < 48 → (wordParts rusTab w).length ≤ 8 →
    ∃ r, rusCheck (st.images D.mtab) junk w dwsets = some r ∧ (r = 0 ∨ r = 1) ∧
      (r = 1 ↔ ∃ a ∈ D.arts, D.HasForm a (w.map rusTab.lower) ∧ rusAdmits w dwsets a.demand = true)

/-- **C43** for words none of whose forms is at risk because of a suffix.  Missing: those at risk; the
statement is false for them (`C43_counterexample`). -/
theorem C43_check_exact_partial (h : RusOk A D st) (w junk : List Byte) (dwsets : Nat)
    (hne : w ≠ []) (hlen : w.length < 48) (hparts : (wordParts rusTab w).length ≤ 8)
    (hs : D.SuffixSafe (w.map rusTab.lower)) :
    ∃ r, rusCheck (st.images D.mtab) junk w dwsets = some r ∧ (r = 0 ∨ r = 1) ∧
      (r = 1 ↔ ∃ a ∈ D.arts, D.HasForm a (w.map rusTab.lower) ∧ rusAdmits w dwsets a.demand = true) := by
  obtain ⟨H, hH⟩ := rusScanOf_exists h (w.map rusTab.lower) (by simpa using hlen)
  obtain ⟨k1, k2⟩ := rusHeard_ne (dwsets := dwsets) hH
  refine ⟨_, rusCheck_heard w junk dwsets hne hlen hparts hH, ?_, ?_⟩
  · split <;> simp
  · constructor
    · intro h1
      apply k1
      intro h0
      rw [if_pos h0] at h1
      exact absurd h1 (by decide)
    · intro h1
      rw [if_neg (k2 hs h1)]

/-- No word is accepted that is not a form: in every case. -/
theorem C43_check_sound (h : RusOk A D st) (w junk : List Byte) (dwsets : Nat)
    (hne : w ≠ []) (hlen : w.length < 48) (hparts : (wordParts rusTab w).length ≤ 8) :
    rusCheck (st.images D.mtab) junk w dwsets = some 0 ∨ rusCheck (st.images D.mtab) junk w dwsets = some 1 ∧
      ∃ a ∈ D.arts, D.HasForm a (w.map rusTab.lower) ∧ rusAdmits w dwsets a.demand = true := by
  obtain ⟨H, hH⟩ := rusScanOf_exists h (w.map rusTab.lower) (by simpa using hlen)
  rw [rusCheck_heard w junk dwsets hne hlen hparts hH]
  by_cases h0 : rusHeard H w dwsets = []
  · left; rw [if_pos h0]
  · right; rw [if_neg h0]; exact ⟨rfl, (rusHeard_ne hH).1 h0⟩

/-- Dictionaries without suffixes: no further condition. -/
theorem C43_check_no_suffix (h : RusOk A D st) (hpost : ∀ a ∈ D.arts, a.post = []) (w junk : List Byte) (dwsets : Nat)
    (hne : w ≠ []) (hlen : w.length < 48) (hparts : (wordParts rusTab w).length ≤ 8) :
    ∃ r, rusCheck (st.images D.mtab) junk w dwsets = some r ∧ (r = 0 ∨ r = 1) ∧
      (r = 1 ↔ ∃ a ∈ D.arts, D.HasForm a (w.map rusTab.lower) ∧ rusAdmits w dwsets a.demand = true) :=
  C43_check_exact_partial h w junk dwsets hne hlen hparts (D.suffixSafe_of_none hpost _)

/-- The answer does not depend on the memory behind the word. -/
theorem C43_check_pure (h : RusOk A D st) (w junk junk' : List Byte) (dwsets : Nat)
    (hne : w ≠ []) (hlen : w.length < 48) (hparts : (wordParts rusTab w).length ≤ 8) :
    rusCheck (st.images D.mtab) junk w dwsets = rusCheck (st.images D.mtab) junk' w dwsets := by
  obtain ⟨H, hH⟩ := rusScanOf_exists h (w.map rusTab.lower) (by simpa using hlen)
  rw [rusCheck_heard w junk dwsets hne hlen hparts hH, rusCheck_heard w junk' dwsets hne hlen hparts hH]

/-- "там" and "там-то": the second is not recognized. -/
def c43Dict : RusDict := ⟨[], [], fun _ => [], [⟨[242, 224, 236], 54, 0, 0, [], 9⟩, ⟨[242, 224, 236], 54, 0, 0, [45, 242, 238], 10⟩]⟩

theorem c43_builds : (rusBuild c43Dict.ftab c43Dict.mtab c43Dict.arts).isSome = true := by decide +kernel

/-- What the compiler makes of it. -/
def c43State : RusState := (rusBuild c43Dict.ftab c43Dict.mtab c43Dict.arts).get c43_builds

theorem c43_ok : RusOk [224, 236, 242] c43Dict c43State where
  built := by simp [c43State]
  alpha := by decide
  letters := by decide
  stems := by decide
  short := by decide
  ids := by decide
  posts := by decide
  text := by decide
  words := by decide
  prepos := by decide
  plainw := by decide
  refs := by decide
  tables := by
    intro a ha hinf
    have : ∀ a ∈ c43Dict.arts, ¬ a.Inflected := by decide
    exact absurd hinf (this a ha)
  long := by
    intro a ha hinf
    have : ∀ a ∈ c43Dict.arts, ¬ a.Inflected := by decide
    exact absurd hinf (this a ha)
  mixes := by
    intro a ha hmt
    have : ∀ a ∈ c43Dict.arts, a.mtoffs = 0 := by decide
    exact absurd (this a ha) hmt
  covers := by
    intro a ha
    have : ∀ a ∈ c43Dict.arts, ¬ a.Inflected ∧ a.mtoffs = 0 := by decide
    exact C45_bounds_cover_partial c43Dict a (fun h => absurd h (this a ha).1) (fun h => absurd h (this a ha).1)
      (fun h => absurd h (this a ha).1)
  count := by decide
  classes := by decide +kernel
  plain := by decide +kernel
  size := by decide +kernel

theorem C43_counterexample : ¬ C43_full := by
  intro hf
  obtain ⟨r, h1, h2, h3⟩ := hf _ _ _ c43_ok [242, 224, 236, 45, 242, 238] [] 0 (by decide) (by decide) (by decide +kernel)
  have h0 : rusCheck (c43State.images c43Dict.mtab) [] [242, 224, 236, 45, 242, 238] 0 = some 0 := by decide +kernel
  rw [h0, Option.some.injEq] at h1
  subst h1
  have := h3.2 ⟨⟨[242, 224, 236], 54, 0, 0, [45, 242, 238], 10⟩, by decide,
    ⟨[], [], ⟨0, 0⟩, ⟨rfl, rfl, rfl⟩, by decide +kernel⟩, by decide +kernel⟩
  exact absurd this (by decide)

/-- Non-vacuity: the sample dictionary meets the limits; "сна" and "сон-то" are forms and accepted, "соны"
is not, "иван" only when capitals are ignored. -/
example : RusOk rusSampleLetters rusSample rusSampleState ∧
    rusCheck (rusSampleState.images rusSample.mtab) [] [241, 237, 224] 0 = some 1 ∧
    rusCheck (rusSampleState.images rusSample.mtab) [] [241, 238, 237, 45, 242, 238] 0 = some 1 ∧
    rusCheck (rusSampleState.images rusSample.mtab) [] [241, 238, 237, 251] 0 = some 0 ∧
    rusCheck (rusSampleState.images rusSample.mtab) [] [232, 226, 224, 237] 0 = some 0 ∧
    rusCheck (rusSampleState.images rusSample.mtab) [] [232, 226, 224, 237] 2 = some 1 ∧
    rusCheck (rusSampleState.images rusSample.mtab) [] [200, 226, 224, 237] 0 = some 1 :=
  ⟨rusSample_ok, by decide +kernel, by decide +kernel, by decide +kernel, by decide +kernel, by decide +kernel, by decide +kernel⟩

end Libmorph
