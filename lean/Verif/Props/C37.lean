import Verif.Props.C19
import Verif.Props.C23
/-
C37 and the general part of C19: Lemmatize when one lexeme matches a word several times (English).
-/
namespace Libmorph

/-- **C37** what Lemmatize reports, for every dictionary, word and choice of buffers, whether or not a
lexeme is read several times: readings of one lexeme in a row share one record, which counts the
descriptions of the first of them; those of the others are written behind, without repetition of a form number the
record already has, but are not counted (the missing part of C37, `C37_counterexample`).  It fails only for
lack of room, blaming the right buffer; one record and one description to spare are enough. -/
theorem C37_lemmatize_partial {A : List Byte} {as : List Article} (h : EngOk A as) (w : List Byte) (dwsets : Nat)
    (hne : w ≠ []) (hlen : w.length < 48) (hparts : (wordParts engTab w).length ≤ 8)
    (hD : ∀ p ∈ Matches as w dwsets, p.1.dictForms ≠ []) :
    ∃ H, Readings as w dwsets H ∧ ∀ junk L B G,
      let gs := lemmGroups L.isSome (H.map Article.step)
      (GroupRoomy L B G gs → ∃ s, lemmatize (engBuild as).images junk w L B G dwsets = some ((gs.length : Int), s) ∧
        GroupReported L B G gs s ∧ SameSizes L B G s) ∧
      (JoinSafe L G (H.map Article.step) → ¬ GroupFits L B G gs →
        ∃ r s, lemmatize (engBuild as).images junk w L B G dwsets = some (r, s) ∧ r < 0 ∧ GroupBlames L B G gs r ∧
          SameSizes L B G s) := by
  obtain ⟨V, hV⟩ := scanOf_exists h (w.map engTab.lower) (by simpa using hlen)
  have hr := heard_readings hV.visits dwsets
  refine ⟨heard V w dwsets, hr, fun junk L B G => ?_⟩
  have k := lemmatize_groups h w junk dwsets hne hlen hparts hV L B G (fun _ p hp => hD p (hr.mem hp))
  refine ⟨fun hroom => ?_, fun hsafe hfit => ?_⟩
  · rcases k hroom.safe with ⟨s, k1, k2⟩ | ⟨k0, -⟩
    · exact ⟨s, k1, k2.reported, k2.sizes⟩
    · exact absurd hroom k0
  · rcases k hsafe with ⟨s, k1, k2⟩ | ⟨k0, r, s, k1, k2, k3⟩
    · exact absurd k2.fits hfit
    · refine ⟨r, s, k1, ?_, k2, k3⟩
      rcases k2 with ⟨h2, -⟩ | ⟨h2, -⟩ | ⟨h2, -⟩ <;> rw [h2] <;> decide

/-- **C37** no two neighbouring records are of one lexeme, and every reading is in exactly one record. -/
theorem C37_records (H : List LemmStep) :
    ((lemmGroups true H).map fun g => g.1.id).IsChain (· ≠ ·) ∧
      ((lemmGroups true H).flatMap fun g => g.1 :: g.2) = H ∧
      ∀ g ∈ lemmGroups true H, ∀ p ∈ g.2, p.id = g.1.id := by
  induction H using List.reverseRecOn with
  | nil => simp [lemmGroups]
  | append_singleton H p ih =>
    obtain ⟨h1, h2, h3⟩ := ih
    rw [lemmGroups_snoc]
    by_cases hj : ((lemmGroups true H).getLast?).map (fun g => g.1.id) = some p.id
    · obtain ⟨g, hg1, hg2⟩ := Option.map_eq_some_iff.1 hj
      obtain ⟨ys, hys⟩ := List.getLast?_eq_some_iff.1 hg1
      rw [hys] at h1 h2 h3 ⊢
      rw [joinStep_join hg2]
      refine ⟨by simpa using h1, ?_, ?_⟩
      · rw [← h2]; simp
      · intro x hx q hq
        rcases List.mem_append.1 hx with hx | hx
        · exact h3 x (by simp [hx]) q hq
        · simp only [List.mem_singleton] at hx
          subst hx
          simp only [List.mem_append, List.mem_singleton] at hq
          rcases hq with hq | rfl
          · exact h3 g (by simp) q hq
          · exact hg2.symm
    · rw [joinStep_new (fun _ => hj)]
      refine ⟨?_, ?_, ?_⟩
      · rw [List.map_append]
        refine List.IsChain.append h1 (by simp) ?_
        intro x hx y hy
        simp only [List.map_cons, List.map_nil, List.head?_cons, Option.mem_def, Option.some.injEq] at hy
        subst hy
        rintro rfl
        rw [List.getLast?_map] at hx
        exact hj hx
      · rw [List.flatMap_append, h2]; simp
      · intro x hx q hq
        rcases List.mem_append.1 hx with hx | hx
        · exact h3 x hx q hq
        · simp only [List.mem_singleton] at hx
          subst hx
          simp at hq

/-- **C37** within a record no description is counted twice. -/
theorem C37_counted_once (p : Article × List Byte) (l : List LemmStep) (hn : p.1.endings.Nodup) :
    (LemmGroup.counted (Article.step p, l)).Nodup := by
  rw [step_counted, Article.described]
  split
  · apply List.Nodup.map
    · intro i j hij; simpa using hij
    · rw [Article.idsOf]
      refine (List.mergeSort_perm _ _).nodup_iff.2 ?_
      refine List.Nodup.map_on ?_ (hn.filter _)
      rintro ⟨x1, x2⟩ hx ⟨y1, y2⟩ hy hxy
      simp only [List.mem_filter, decide_eq_true_eq] at hx hy
      simp only at hxy
      rw [hx.2, hy.2, hxy]
  · simp

/-- The hypotheses are met by a dictionary in which "cut" is read twice, by articles of one lexeme. -/
theorem cutTwice_ok : EngOk [99, 117, 116] cutTwice := by
  refine ⟨by decide, by decide, by decide +kernel, by decide, by decide, by decide, by decide, by decide, by decide +kernel, ?_,
    by decide +kernel, by decide, by decide +kernel, by decide +kernel, by decide +kernel⟩
  intro a ha e
  have h : ∀ a ∈ cutTwice, a.endings.length ≤ 64 := by decide +kernel
  exact Nat.le_trans (List.length_filter_le _ _) (h a ha)

example : (∀ p ∈ Matches cutTwice [99, 117, 116] 0, p.1.dictForms ≠ []) ∧ (Matches cutTwice [99, 117, 116] 0).length = 2 ∧
    (∀ a ∈ cutTwice, a.endings.Nodup) ∧ (wordParts engTab [99, 117, 116]).length ≤ 8 :=
  ⟨by decide +kernel, by decide +kernel, by decide +kernel, by decide +kernel⟩

/-- Its two readings share one record, and two records, eight bytes and three descriptions are room enough. -/
example : (lemmGroups true (cutTwice.map fun a => Article.step (a, []))).length = 1 ∧
    GroupRoomy (some (List.replicate 2 ⟨0, 0, 0, 0⟩)) (some (List.replicate 8 7)) (some (List.replicate 3 ⟨0, 0, 0, 0⟩))
      (lemmGroups true (cutTwice.map fun a => Article.step (a, []))) := by
  have h1 : (lemmGroups true (cutTwice.map fun a => Article.step (a, []))).length = 1 := by decide +kernel
  have h2 : (groupTexts (lemmGroups true (cutTwice.map fun a => Article.step (a, [])))).length = 4 := by decide +kernel
  have h3 : ∀ g ∈ lemmGroups true (cutTwice.map fun a => Article.step (a, [])), g.1.scratch ≤ 256 := by decide +kernel
  have h4 : (groupGrams (lemmGroups true (cutTwice.map fun a => Article.step (a, [])))).length = 2 := by decide +kernel
  refine ⟨h1, ⟨?_, ?_, fun _ _ => h3, ?_⟩, ?_, ?_⟩
  · rintro l ⟨⟩; rw [h1]; decide
  · rintro b ⟨⟩ _; rw [h2]; decide
  · rintro l ⟨⟩ g ⟨⟩; rw [h4]; decide
  · rintro _ l ⟨⟩ g ⟨⟩; rw [h1]; decide
  · rintro _ l ⟨⟩ g ⟨⟩; rw [h4]; decide

end Libmorph
