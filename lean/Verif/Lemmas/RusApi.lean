import Verif.Lemmas.RusScan
/-
The preparation of a word and CheckWord, Russian.
-/
namespace Libmorph
variable {A : List Byte} {D : RusDict} {st : RusState}

theorem RusArticle.demand_le (a : RusArticle) : a.demand ≤ 2 := by
  unfold RusArticle.demand; split
  · omega
  · split <;> omega

/-- What the preparation of a word comes to. -/
theorem rusPrepare_eq (w : List Byte) (dwsets : Nat) (hne : w ≠ []) (hlen : w.length < 48)
    (hparts : (wordParts rusTab w).length ≤ 8) :
    (rusPrepare w dwsets = some (.error 0) ∧ ∀ d, d ≤ 2 → rusAdmits w dwsets d = false) ∨
    ∃ s, rusPrepare w dwsets = some (.ok (w.map rusTab.lower, s)) ∧ s >>> 16 = w.length ∧
      ∀ d, d ≤ 2 → (decide (dwsets &&& 2 ≠ 0) || isGood (s % 65536) d) = rusAdmits w dwsets d := by
  obtain ⟨s, h1, h2, h3, h4, h5⟩ := capGet_summary rusTab rusTab_ok formLength w hne hlen (by decide) hparts
  have hfit : ∀ d, d ≤ 2 → isGood (s % 65536) d = decide (CapsFit rusTab w d) := by
    intro d hd
    rw [Bool.eq_iff_iff, h4 d hd]; simp
  simp only [rusPrepare, rusCanonic, if_neg (show ¬ w.length = 0 from fun h0 => hne (List.length_eq_zero_iff.1 h0)), h1,
    bind, Option.bind_some, pure, if_neg h2, sfIgnoreCapitals]
  by_cases hbad : s % 256 = 255 ∧ dwsets &&& 2 = 0
  · left
    rw [if_pos (by simpa using hbad)]
    refine ⟨rfl, fun d hd => ?_⟩
    rw [rusAdmits, ← hfit d hd, h5 hbad.1]
    simp [hbad.2]
  · right
    rw [if_neg (by simpa using hbad)]
    refine ⟨s, rfl, h3, fun d hd => ?_⟩
    rw [hfit d hd, rusAdmits]

/-- The readings a scan of the word in small letters comes across. -/
structure RusScanOf (D : RusDict) (st : RusState) (lw : List Byte) (H : List RusReading) : Prop where
  readings : ∀ ok, D.Readings ok lw (H.filter fun r => ok r.art.demand)
  scan : ∀ (junk : List Byte) (scheme dwsets : Nat), scheme >>> 16 = lw.length →
      ∀ {σ ρ : Type} (target : RusTarget σ ρ) (s : σ),
        rusScan (st.images D.mtab) lw junk scheme dwsets target s
          = runList (fun r => target r.art.id (st.heardInfo r.art)
              ⟨r.alt ++ r.ending ++ (r.art.post ++ 0 :: junk), (r.alt ++ r.ending).length⟩ r.art.post (r.grams.map rawGram))
            (H.filter fun r => decide (dwsets &&& 2 ≠ 0) || isGood (scheme % 65536) r.art.demand) s

theorem rusScanOf_exists (h : RusOk A D st) (lw : List Byte) (hw : lw.length < 48) : ∃ H, RusScanOf D st lw H := by
  obtain ⟨H, h1, h2⟩ := rusScan_readings h lw hw
  exact ⟨H, h1, h2⟩

/-- The readings reported for a spelling. -/
def rusHeard (H : List RusReading) (w : List Byte) (dwsets : Nat) : List RusReading :=
  H.filter fun r => rusAdmits w dwsets r.art.demand

theorem rus_word_scan (w junk : List Byte) (dwsets : Nat)
    (hne : w ≠ []) (hlen : w.length < 48) (hparts : (wordParts rusTab w).length ≤ 8)
    {H : List RusReading} (hH : RusScanOf D st (w.map rusTab.lower) H) :
      (rusPrepare w dwsets = some (.error 0) ∧ rusHeard H w dwsets = []) ∨
       ∃ sc, rusPrepare w dwsets = some (.ok (w.map rusTab.lower, sc)) ∧
        ∀ {σ ρ : Type} (target : RusTarget σ ρ) (s : σ),
          rusScan (st.images D.mtab) (w.map rusTab.lower) junk sc dwsets target s
            = runList (fun r => target r.art.id (st.heardInfo r.art)
              ⟨r.alt ++ r.ending ++ (r.art.post ++ 0 :: junk), (r.alt ++ r.ending).length⟩ r.art.post (r.grams.map rawGram))
              (rusHeard H w dwsets) s := by
  rcases rusPrepare_eq w dwsets hne hlen hparts with ⟨h1, h2⟩ | ⟨s, h1, h2, h3⟩
  · refine Or.inl ⟨h1, ?_⟩
    rw [rusHeard, List.filter_eq_nil_iff]
    intro q _
    rw [h2 _ q.art.demand_le]; simp
  · refine Or.inr ⟨s, h1, ?_⟩
    intro σ ρ target s'
    rw [hH.scan junk s dwsets (by simpa using h2) target s', rusHeard]
    congr 1
    apply List.filter_congr
    intro q _
    rw [h3 _ q.art.demand_le]

theorem rusCheck_heard (w junk : List Byte) (dwsets : Nat)
    (hne : w ≠ []) (hlen : w.length < 48) (hparts : (wordParts rusTab w).length ≤ 8)
    {H : List RusReading} (hH : RusScanOf D st (w.map rusTab.lower) H) :
    rusCheck (st.images D.mtab) junk w dwsets = some (if rusHeard H w dwsets = [] then 0 else 1) := by
  rcases rus_word_scan w junk dwsets hne hlen hparts hH with ⟨h1, h0⟩ | ⟨s, h1, h2⟩
  · simp [rusCheck, h1, h0]
  · simp only [rusCheck, h1, bind, Option.bind_some, h2, pure]
    generalize rusHeard H w dwsets = H
    cases H with
    | nil => simp [runList]
    | cons p H => simp [runList]

/-- Some reading is heard exactly when the word is an admitted form (if none is at risk). -/
theorem rusHeard_ne {w : List Byte} {dwsets : Nat} {H : List RusReading} (hH : RusScanOf D st (w.map rusTab.lower) H) :
    (rusHeard H w dwsets ≠ [] → ∃ a ∈ D.arts, D.HasForm a (w.map rusTab.lower) ∧ rusAdmits w dwsets a.demand = true) ∧
    (D.SuffixSafe (w.map rusTab.lower) →
      (∃ a ∈ D.arts, D.HasForm a (w.map rusTab.lower) ∧ rusAdmits w dwsets a.demand = true) → rusHeard H w dwsets ≠ []) := by
  have hr := hH.readings (rusAdmits w dwsets)
  constructor
  · intro hne
    obtain ⟨r, hm⟩ := List.exists_mem_of_ne_nil _ hne
    obtain ⟨h1, h2⟩ := hr.proper r hm
    obtain ⟨g, hg⟩ := List.exists_mem_of_ne_nil _ h1.some_
    exact ⟨r.art, h1.art, ⟨r.alt, r.ending, g, (h1.grams g).1 hg, h1.word⟩, h2⟩
  · rintro hs ⟨a, ha, ⟨x, e, g, h1, h2⟩, h3⟩ h0
    have := hr.all hs a ha h3 x e g h1 h2
    rw [rusHeard] at h0
    rw [h0] at this
    simp only [List.filter_nil, List.length_nil] at this
    have := List.count_pos_iff.2 ha
    omega

end Libmorph
