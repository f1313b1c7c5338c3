import Verif.Lemmas.EngForms
import Verif.Lemmas.Hits
/-
Words one after another put their forms into one buffer: common to both languages.
-/
namespace Libmorph

/-- One word's step: it puts its `raw` forms into the library's own buffer of 256 bytes and their printed
versions `out` into the caller's. -/
structure FormStep (act : FormState → Option (Option Int × FormState)) (raw out : List (List Byte)) (B : List Byte) : Prop where
  same : out.length = raw.length
  good : ∀ (x : List Byte) (s : FormState), s.pforms.Holds B x → (packed raw).length ≤ 256 →
    (raw ≠ [] → (x ++ packed out).length + 1 ≤ B.length) →
    ∃ c, act s = some (none, ⟨c, s.nbuilt + raw.length⟩) ∧ c.Holds B (x ++ packed out)
  bad : ∀ (x : List Byte) (s : FormState), s.pforms.Holds B x → raw ≠ [] →
    (256 < (packed raw).length ∨ B.length < (x ++ packed out).length + 1) →
    ∃ c n, act s = some (some LEMMBUFF_FAILED, ⟨c, n⟩) ∧ ∃ b, c.buf = some b ∧ b.length = B.length

/-- Words one after another into the same buffer. -/
theorem formRun_gen (B : List Byte) {α : Type} (raw out : α → List (List Byte)) (H : List α)
    (act : α → FormState → Option (Option Int × FormState)) (hact : ∀ p ∈ H, FormStep (act p) (raw p) (out p) B)
    (s : FormState) (x : List Byte) (hs : s.pforms.Holds B x) :
    ((∀ p ∈ H, (packed (raw p)).length ≤ 256) →
      (H.flatMap out ≠ [] → (x ++ packed (H.flatMap out)).length + 1 ≤ B.length) →
      ∃ c, runList act H s = some (none, ⟨c, s.nbuilt + (H.flatMap out).length⟩) ∧
        c.Holds B (x ++ packed (H.flatMap out))) ∧
    (((∃ p ∈ H, 256 < (packed (raw p)).length) ∨
        (H.flatMap out ≠ [] ∧ B.length < (x ++ packed (H.flatMap out)).length + 1)) →
      ∃ c n, runList act H s = some (some LEMMBUFF_FAILED, ⟨c, n⟩) ∧ ∃ b, c.buf = some b ∧ b.length = B.length) := by
  induction H generalizing s x with
  | nil =>
    refine ⟨fun _ _ => ⟨s.pforms, ?_, by simpa [packed] using hs⟩, ?_⟩
    · simp [runList]
    · rintro (⟨p, hp, -⟩ | ⟨h1, -⟩)
      · simp at hp
      · simp at h1
  | cons p H ih =>
    obtain ⟨hGl, f1, f2⟩ := hact p (by simp)
    have f1 := f1 x s hs
    have f2 := f2 x s hs
    have ih := ih (fun q hq => hact q (by simp [hq]))
    simp only [List.flatMap_cons, packed_append, runList]
    generalize hD : raw p = D at *
    generalize hG : out p = G at *
    have hGD : G = [] ↔ D = [] := by rw [← List.length_eq_zero_iff, hGl, List.length_eq_zero_iff]
    by_cases hsz : (packed D).length ≤ 256
    · by_cases hfit : D ≠ [] → (x ++ packed G).length + 1 ≤ B.length
      · obtain ⟨c, hc1, hc2⟩ := f1 hsz hfit
        rw [hc1]
        simp only
        obtain ⟨i1, i2⟩ := ih ⟨c, s.nbuilt + D.length⟩ _ hc2
        constructor
        · intro hall hroom
          obtain ⟨c', j1, j2⟩ := i1 (fun q hq => hall q (by simp [hq])) (by
            intro hne
            have := hroom (by simp [hne])
            simpa [List.append_assoc] using this)
          refine ⟨c', ?_, by simpa [List.append_assoc] using j2⟩
          rw [j1]
          simp only [Option.some.injEq, Prod.mk.injEq, FormState.mk.injEq, true_and, List.length_append, hGl]
          push_cast; omega
        · intro hbad
          apply i2
          rcases hbad with ⟨q, hq, hq2⟩ | ⟨h1, h2⟩
          · rcases List.mem_cons.1 hq with rfl | hq
            · rw [hD] at hq2; omega
            · exact Or.inl ⟨q, hq, hq2⟩
          · right
            refine ⟨?_, by simpa [List.append_assoc] using h2⟩
            intro h0
            rw [h0] at h1 h2
            simp only [List.append_nil] at h1
            have := hfit (fun hd => h1 (hGD.2 hd))
            simp [packed] at h2 this; omega
      · have hfit2 : D ≠ [] ∧ B.length < (x ++ packed G).length + 1 := by
          by_cases hd : D = []
          · exact absurd (fun h => absurd hd h) hfit
          · refine ⟨hd, ?_⟩
            by_contra hc; exact hfit (fun _ => by omega)
        obtain ⟨c, n, hc1, hc2⟩ := f2 hfit2.1 (Or.inr hfit2.2)
        rw [hc1]
        simp only
        refine ⟨fun _ hroom => ?_, fun _ => ⟨c, n, rfl, hc2⟩⟩
        exfalso
        have := hroom (by simp [hGD, hfit2.1])
        have h3 := hfit2.2
        simp only [List.length_append] at this h3; omega
    · have hd : D ≠ [] := by rintro rfl; simp [packed] at hsz
      obtain ⟨c, n, hc1, hc2⟩ := f2 hd (Or.inl (by omega))
      rw [hc1]
      simp only
      refine ⟨fun hall => ?_, fun _ => ⟨c, n, rfl, hc2⟩⟩
      have := hall p (by simp)
      rw [hD] at this; omega

/-- The end of `BuildForm` and `FindForms`: what the buffer holds. -/
theorem Holds.final {c : Coder} {B x : List Byte} (h : c.Holds B x) :
    c.buf = some (if x = [] then B else x ++ 0 :: B.drop (x.length + 1)) := by
  rcases h.buf with ⟨h1, h2⟩ | ⟨h1, -, h2⟩
  · simp [h1, h2]
  · simp [h1, h2]

theorem packed_ne_nil {fs : List (List Byte)} (h : fs ≠ []) : packed fs ≠ [] := by
  cases fs with
  | nil => exact absurd rfl h
  | cons f fs => simp [packed_cons]

/-- The outcome for the caller. -/
theorem formRun_outcome_gen (B : List Byte) {α : Type} (raw out : α → List (List Byte)) (H : List α)
    (act : α → FormState → Option (Option Int × FormState)) (hact : ∀ p ∈ H, FormStep (act p) (raw p) (out p) B) :
    FormOutcome ((runList act H ⟨⟨some B, 0⟩, 0⟩).map fun r => ((formResult r).1, (formResult r).2.buf))
      (H.flatMap out) (∀ p ∈ H, (packed (raw p)).length ≤ 256) B := by
  have hs : (⟨some B, 0⟩ : Coder).Holds B [] := ⟨rfl, by simp, Or.inl ⟨rfl, rfl⟩⟩
  obtain ⟨g1, g2⟩ := formRun_gen B raw out H act hact ⟨⟨some B, 0⟩, 0⟩ [] hs
  simp only [List.nil_append] at g1 g2
  refine ⟨?_, ?_, ?_⟩
  · intro h0 hsc
    obtain ⟨c, c1, c2⟩ := g1 hsc (fun hne => absurd h0 hne)
    rw [c1]
    simp only [Option.map_some, formResult, Holds.final c2]
    simp [h0, packed]
  · intro h0 hsc hfit
    obtain ⟨c, c1, c2⟩ := g1 hsc (fun _ => hfit)
    rw [c1]
    simp only [Option.map_some, formResult, Holds.final c2]
    simp [packed_ne_nil h0]
  · intro hbad
    obtain ⟨c, n, c1, b, c2, c3⟩ := g2 (by
      rcases hbad with hb | hb
      · left; push Not at hb; exact hb
      · exact Or.inr hb)
    rw [c1]
    exact ⟨b, by simp [formResult, c2], c3⟩

end Libmorph
