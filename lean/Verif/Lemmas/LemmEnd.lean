import Verif.Spec.LemmEnd
import Verif.Lemmas.RusLemm
import Verif.Lemmas.EngLemm
/-
How Lemmatize ends, for buffers of any size.
-/
namespace Libmorph

section
variable {L : Option (List Lemm)} {B : Option (List Byte)} {G : Option (List Gram)}

theorem newEnd_done {gs : List LemmGroup} {p : LemmStep} (h : GroupFits L B G (gs ++ [(p, [])])) :
    newEnd (L.map List.length) (B.map List.length) (G.map List.length) gs p = .done := by
  rw [newEnd, if_neg, if_neg, if_neg]
  · cases L with
    | none => simp
    | some l => cases G with
      | none => simp
      | some g => have := h.grams l rfl g rfl; simp; omega
  · cases B with
    | none => simp
    | some b =>
      have h1 := h.texts b rfl (by simp)
      have h2 := h.scratch b rfl (p, []) (by simp)
      simp at h2 ⊢; omega
  · cases L with
    | none => simp
    | some l => have := h.lemms l rfl; simp at this ⊢; omega

/-- How the run over the readings ends. -/
def EndsAs (L : Option (List Lemm)) (B : Option (List Byte)) (G : Option (List Gram)) (gs : List LemmGroup) (res : Option (Option Int × LemmState)) : LemmEnd → Prop
  | .done => ∃ s, res = some (none, s) ∧ GroupHolds L B G gs s
  | .code r => ∃ s, res = some (some r, s) ∧ GroupBlames L B G gs r ∧ SameSizes L B G s
  | .undefined => res = none

/-- All the readings, for buffers of any size. -/
theorem groupRun_exact {α : Type} (step : α → LemmStep) (form : α → Bool → LemmState → Option (Except Int Unit × LemmState))
    (act : α → LemmState → Option (Option Int × LemmState)) (V : List α)
    (hact : ∀ v ∈ V, ∀ s, act v s = lemmCallWith (form v) (step v).put (step v).id (step v).grs s)
    (hp : ∀ v ∈ V, Prints B (step v) (form v)) (h32 : ∀ v ∈ V, (step v).grs.length < 2 ^ 32)
    {done : List LemmStep} {s : LemmState} (hs : GroupHolds L B G (lemmGroups L.isSome done) s) :
    EndsAs L B G (lemmGroups L.isSome (done ++ V.map step)) (runList act V s)
      (lemmEnd (L.map List.length) (B.map List.length) (G.map List.length) (lemmGroups L.isSome done) (V.map step)) := by
  induction V generalizing done s with
  | nil => exact ⟨s, rfl, by simpa using hs⟩
  | cons v V ih =>
    have hstep : EndsAs L B G (lemmGroups L.isSome (done ++ [step v])) (act v s)
        (stepEnd (L.map List.length) (B.map List.length) (G.map List.length) (lemmGroups L.isSome done) (step v)) := by
      rw [hact v (by simp) s, lemmGroups_snoc]
      by_cases hj : L.isSome = true ∧ ((lemmGroups L.isSome done).getLast?).map (fun g => g.1.id) = some (step v).id
      · obtain ⟨l, rfl⟩ := Option.isSome_iff_exists.1 hj.1
        obtain ⟨g, hg1, hg2⟩ := Option.map_eq_some_iff.1 hj.2
        obtain ⟨ys, hys⟩ := List.getLast?_eq_some_iff.1 hg1
        simp only [Option.isSome_some] at hys hs hg1 ⊢
        rw [stepEnd, hg1]
        simp only [Option.map_some, Option.isSome_some, true_and, if_pos hg2]
        rw [hys] at hs ⊢
        rw [joinStep_join hg2]
        rcases groupStep_join3 (hp v (by simp)) hs hg2 with ⟨h1, h2⟩ | ⟨-, r, s', h2, h3, h4, h5⟩ | ⟨h1, -, -, h2⟩
        · rw [h1]; exact h2
        · rw [h5]; exact ⟨s', h2, h3, h4⟩
        · rw [h1]; exact h2
      · have hnew : stepEnd (L.map List.length) (B.map List.length) (G.map List.length) (lemmGroups L.isSome done) (step v) =
            newEnd (L.map List.length) (B.map List.length) (G.map List.length) (lemmGroups L.isSome done) (step v) := by
          rw [stepEnd]
          cases hg : (lemmGroups L.isSome done).getLast? with
          | none => rfl
          | some g =>
            simp only
            rw [if_neg]
            rintro ⟨h1, h2⟩
            exact hj ⟨by simpa using h1, by rw [hg]; simp [h2]⟩
        rw [joinStep_new (fun h1 h2 => hj ⟨h1, h2⟩), hnew]
        rcases groupStep_new (hp v (by simp)) (h32 v (by simp)) hs
          (fun l hl h2 => hj ⟨by rw [hl]; rfl, h2⟩) with ⟨s', h1, h2⟩ | ⟨-, r, s', h2, h3, h4, h5⟩
        · rw [newEnd_done h2.fits]; exact ⟨s', h1, h2⟩
        · rw [h5]; exact ⟨s', h2, h3, h4⟩
    have happ : done ++ (v :: V).map step = (done ++ [step v]) ++ V.map step := by simp
    rw [happ, List.map_cons, lemmEnd]
    simp only [runList]
    have hsome : (L.map List.length).isSome = L.isSome := by simp
    generalize stepEnd (L.map List.length) (B.map List.length) (G.map List.length) (lemmGroups L.isSome done) (step v) = e at hstep ⊢
    rcases e with _ | r | _
    · obtain ⟨s', h1, h2⟩ := hstep
      rw [h1, if_pos rfl, hsome, ← lemmGroups_snoc]
      simp only
      exact ih (fun q hq => hact q (by simp [hq])) (fun q hq => hp q (by simp [hq])) (fun q hq => h32 q (by simp [hq])) h2
    · obtain ⟨s', h1, h2, h3⟩ := hstep
      rw [h1, if_neg (by simp)]
      exact ⟨s', rfl, h2.mono, h3⟩
    · rw [show act v s = none from hstep, if_neg (by simp)]
      rfl

/-- What the interface gives then. -/
def AnswersAs (L : Option (List Lemm)) (B : Option (List Byte)) (G : Option (List Gram)) (gs : List LemmGroup) (res : Option (Int × LemmState)) : LemmEnd → Prop
  | .done => ∃ s, res = some ((gs.length : Int), s) ∧ GroupReported L B G gs s ∧ SameSizes L B G s
  | .code r => ∃ s, res = some (r, s) ∧ GroupBlames L B G gs r ∧ SameSizes L B G s
  | .undefined => res = none

/-- Russian Lemmatize, for buffers of any size. -/
theorem rusLemmatize_exact {A : List Byte} {D : RusDict} {st : RusState} (h : RusOk A D st) (w junk : List Byte) (dwsets : Nat)
    (hne : w ≠ []) (hlen : w.length < 48) (hparts : (wordParts rusTab w).length ≤ 8)
    {H : List RusReading} (hH : RusScanOf D st (w.map rusTab.lower) H)
    (L : Option (List Lemm)) (B : Option (List Byte)) (G : Option (List Gram)) (F : RusReading → List (List Byte))
    (hF : B.isSome → ∀ r ∈ rusHeard H w dwsets, D.DictForms r.art r.first dwsets (F r))
    (h32 : ∀ r ∈ rusHeard H w dwsets, r.grams.length < 2 ^ 32) :
    AnswersAs L B G (lemmGroups L.isSome ((rusHeard H w dwsets).map fun r => r.step (F r))) (rusLemmatize (st.images D.mtab) junk w L B G dwsets)
      (lemmEnd (L.map List.length) (B.map List.length) (G.map List.length) [] ((rusHeard H w dwsets).map fun r => r.step (F r))) := by
  have hp := rusHeard_readings (dwsets := dwsets) hH
  have hr := rus_word_scan w junk dwsets hne hlen hparts hH
  generalize rusHeard H w dwsets = H at hp hr hF h32 ⊢
  rcases hr with ⟨h1, rfl⟩ | ⟨s, h1, h2⟩
  · refine ⟨⟨L, 0, ⟨B, 0⟩, G, 0, 0⟩, by simp [rusLemmatize, h1, lemmGroups], ?_, ?_⟩
    · exact GroupHolds.reported GroupHolds.init
    · exact GroupHolds.sizes GroupHolds.init
  · have k := groupRun_exact (L := L) (B := B) (G := G) (fun r => r.step (F r))
      (fun r => rusLemmForm (st.images D.mtab) dwsets r.art.stem r.art.post (st.heardInfo r.art) r.first)
      (fun (r : RusReading) s => rusLemmCall (st.images D.mtab) dwsets r.art.id (st.heardInfo r.art)
          (stemOf (w.map rusTab.lower) junk ⟨r.alt ++ r.ending ++ (r.art.post ++ 0 :: junk), (r.alt ++ r.ending).length⟩)
          r.art.post (r.grams.map rawGram) s) H
      (fun r hrH s => by
        have hpr := (hp.proper r hrH).1
        obtain ⟨g, gs, hg⟩ := List.exists_cons_of_ne_nil hpr.some_
        simp only [rusStemOf hpr, rusLemmCall, hg, List.map_cons, RusReading.first, List.headD_cons]
        rw [rusPut_eq h hpr.art (F r)]
        simp only [RusReading.step, hg]
        rfl)
      (fun r hrH => rusPrints h (hp.proper r hrH).1.art _ _ (fun hB => hF hB r hrH) rfl rfl)
      (fun r hrH => by simpa [RusReading.step] using h32 r hrH)
      (done := []) GroupHolds.init
    simp only [List.nil_append, show lemmGroups L.isSome [] = [] from rfl] at k
    generalize lemmEnd (L.map List.length) (B.map List.length) (G.map List.length) [] (H.map fun r => r.step (F r)) = e at k ⊢
    rcases e with _ | r | _
    · obtain ⟨s', k1, k2⟩ := k
      refine ⟨s', ?_, k2.reported, k2.sizes⟩
      simp only [rusLemmatize, h1, bind, Option.bind_some, h2]
      simp only [k1, Option.bind_some, k2.nbuilt, pure]
    · obtain ⟨s', k1, k2, k3⟩ := k
      refine ⟨s', ?_, k2, k3⟩
      have hneg : r < 0 := by
        rcases k2 with ⟨h, -⟩ | ⟨h, -⟩ | ⟨h, -⟩ <;> rw [h] <;> decide
      simp only [rusLemmatize, h1, bind, Option.bind_some, h2]
      simp only [k1, Option.bind_some, if_pos hneg, pure]
    · simp only [EndsAs] at k
      show rusLemmatize _ _ _ _ _ _ _ = none
      simp only [rusLemmatize, h1, bind, Option.bind_some, h2]
      simp only [k, Option.bind_none]

/-- English Lemmatize, for buffers of any size. -/
theorem lemmatize_exact {A : List Byte} {as : List Article} (h : EngOk A as) (w junk : List Byte) (dwsets : Nat)
    (hne : w ≠ []) (hlen : w.length < 48) (hparts : (wordParts engTab w).length ≤ 8)
    {V : List (Article × List Byte)} (hV : ScanOf as (w.map engTab.lower) V)
    (L : Option (List Lemm)) (B : Option (List Byte)) (G : Option (List Gram))
    (hD : B.isSome → ∀ p ∈ heard V w dwsets, p.1.dictForms ≠ []) :
    AnswersAs L B G (lemmGroups L.isSome ((heard V w dwsets).map Article.step)) (lemmatize (engBuild as).images junk w L B G dwsets)
      (lemmEnd (L.map List.length) (B.map List.length) (G.map List.length) [] ((heard V w dwsets).map Article.step)) := by
  have hp := heard_readings hV.visits dwsets
  have hr := word_scan w junk dwsets hne hlen hparts hV
  generalize heard V w dwsets = H at hp hr hD ⊢
  have hmem : ∀ p ∈ H, p ∈ Matches as w dwsets := fun p hpH => hp.mem hpH
  rcases hr with ⟨h1, rfl⟩ | ⟨s, h1, h2⟩
  · refine ⟨⟨L, 0, ⟨B, 0⟩, G, 0, 0⟩, by simp [lemmatize, h1, lemmGroups], ?_, ?_⟩
    · exact GroupHolds.reported GroupHolds.init
    · exact GroupHolds.sizes GroupHolds.init
  · have k := groupRun_exact (L := L) (B := B) (G := G) Article.step
      (fun p => lemmForm (engBuild as).images.flexTree p.1.lowStem p.1.post ((engBuild as).infoFor p.1))
      (fun p s => lemmCall (engBuild as).images.flexTree p.1.id ((engBuild as).infoFor p.1)
          (stemOf (w.map engTab.lower) junk ⟨p.2 ++ p.1.post ++ 0 :: junk, p.2.length⟩) p.1.post (p.1.grams p.2) s) H
      (fun p hpH s => by
        simp only [stemOf_match (hmem p hpH), lemmCall, setGram_eq h (mem_Matches.1 (hmem p hpH)).1 p.2]
        rfl)
      (fun p hpH => engPrints h (mem_Matches.1 (hmem p hpH)).1 (fun hB => hD hB p hpH))
      (fun p hpH => step_small h (mem_Matches.1 (hmem p hpH)).1)
      (done := []) GroupHolds.init
    simp only [List.nil_append, show lemmGroups L.isSome [] = [] from rfl] at k
    generalize lemmEnd (L.map List.length) (B.map List.length) (G.map List.length) [] (H.map Article.step) = e at k ⊢
    rcases e with _ | r | _
    · obtain ⟨s', k1, k2⟩ := k
      refine ⟨s', ?_, k2.reported, k2.sizes⟩
      simp only [lemmatize, h1, bind, Option.bind_some, h2]
      simp only [k1, Option.bind_some, k2.nbuilt, pure]
    · obtain ⟨s', k1, k2, k3⟩ := k
      refine ⟨s', ?_, k2, k3⟩
      have hneg : r < 0 := by
        rcases k2 with ⟨h, -⟩ | ⟨h, -⟩ | ⟨h, -⟩ <;> rw [h] <;> decide
      simp only [lemmatize, h1, bind, Option.bind_some, h2]
      simp only [k1, Option.bind_some, if_pos hneg, pure]
    · simp only [EndsAs] at k
      show lemmatize _ _ _ _ _ _ _ = none
      simp only [lemmatize, h1, bind, Option.bind_some, h2]
      simp only [k, Option.bind_none]

end

end Libmorph
