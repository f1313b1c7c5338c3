import Verif.Lemmas.Wide
/-
The wide lemmatizer mirrors the byte lemmatizer.
-/
namespace Libmorph

variable {C : Codec} {byte : Nat → Byte} {wide : Byte → Nat}

theorem groupRecords_at (wide : Byte → Nat) (wg : Bool) (gs : List LemmGroup) : ∀ (fpos gpos i : Nat), i < gs.length →
    ∃ r g k, (groupRecords true wg fpos gpos gs)[i]? = some r ∧ g ∈ gs ∧ r.plemma = fpos + k ∧
      (∀ rest, g.1.text ++ [0] <+: (packed (gs.map fun g => g.1.text) ++ rest).drop k) ∧
      (∀ rest, g.1.text.map wide ++ [0] <+: (widePacked wide (gs.map fun g => g.1.text) ++ rest).drop k) := by
  induction gs with
  | nil => intro _ _ i h; simp at h
  | cons g gs ih =>
    intro fpos gpos i hi
    cases i with
    | zero =>
      refine ⟨_, g, 0, by rw [groupRecords]; rfl, by simp, rfl, ?_, ?_⟩
      · intro rest; simp [packed]
      · intro rest; simp [widePacked]
    | succ i =>
      obtain ⟨r, g', k, h1, h2, h3, h4, h5⟩ := ih (fpos + g.1.text.length + 1) (if wg then gpos + g.written.length else gpos) i
        (by simpa using hi)
      refine ⟨r, g', g.1.text.length + 1 + k, by rw [groupRecords]; simpa using h1, by simp [h2], by omega, ?_, ?_⟩
      · intro rest
        have e : packed ((g :: gs).map fun g => g.1.text) ++ rest =
            (g.1.text ++ [0]) ++ (packed (gs.map fun g => g.1.text) ++ rest) := by simp [packed]
        rw [e, ← List.drop_drop, List.drop_left' (by simp)]
        exact h4 rest
      · intro rest
        have e : widePacked wide ((g :: gs).map fun g => g.1.text) ++ rest =
            (g.1.text.map wide ++ [0]) ++ (widePacked wide (gs.map fun g => g.1.text) ++ rest) := by simp [widePacked]
        rw [e, ← List.drop_drop, List.drop_left' (by simp)]
        exact h5 rest

theorem groupRecords_at' (wf wg : Bool) (gs : List LemmGroup) (fpos gpos i : Nat) (h : i < gs.length) :
    ∃ r, (groupRecords wf wg fpos gpos gs)[i]? = some r := by
  refine ⟨_, List.getElem?_eq_getElem (by rw [groupRecords_len]; exact h)⟩

/-- The wide lemmatizer, where its own room suffices. -/
theorem wide_mirrors (hC : C.Ok byte wide) {lem : List Byte → Option (List Lemm) → Option (List Byte) → Option (List Gram) → Option (Int × LemmState)}
    {H : List LemmStep} (w : List Nat) (hlen : w.length < 240) (hspec : LemmSpec (lem (w.map byte)) H) (hz : ∀ p ∈ H, 0 ∉ p.text)
    (lmbuff : List Lemm) (szlemm : List Byte) (hl : lmbuff.length = 32) (hs : szlemm.length = 240)
    (out : Option (List LemmW)) (W : Option (List Nat)) (L : Option (List Lemm)) (B : Option (List Byte)) (G : Option (List Gram))
    (hL : L.map List.length = out.map List.length) (hB : B.map List.length = W.map List.length)
    (gs : List LemmGroup) (hgs : gs = lemmGroups out.isSome H)
    (hroom : GroupRoomy L B G gs) (hw : WideRoom out W G gs) :
    ∃ s out' W' G', lem (w.map byte) L B G = some ((gs.length : Int), s) ∧
      wideLemmatize C lem lmbuff szlemm w out W G = some ((gs.length : Int), out', W', G') ∧ WideMirrors wide gs.length s out W out' W' G' := by
  have hLs : L.isSome = out.isSome := by cases L <;> cases out <;> simp_all
  have hBs : B.isSome = W.isSome := by cases B <;> cases W <;> simp_all
  have hnL : (narrowL lmbuff out).isSome = out.isSome := by cases out <;> rfl
  have hnB : (narrowB szlemm W).isSome = W.isSome := by cases W <;> rfl
  have hLlen : ∀ o l, out = some o → L = some l → l.length = o.length := by
    rintro o l rfl rfl; simpa using hL
  have hBlen : ∀ v b, W = some v → B = some b → b.length = v.length := by
    rintro v b rfl rfl; simpa using hB
  have hroom' : GroupRoomy (narrowL lmbuff out) (narrowB szlemm W) G gs := by
    refine ⟨⟨?_, ?_, ?_, ?_⟩, ?_, ?_⟩
    · intro l hl'
      cases out with
      | none => simp [narrowL] at hl'
      | some o =>
        obtain ⟨l0, rfl⟩ := Option.isSome_iff_exists.1 hLs
        simp only [narrowL, Option.map_some, Option.mem_def, Option.some.injEq] at hl'
        have h1 := hroom.lemms l0 rfl
        have h2 := hLlen o l0 rfl rfl
        have h3 := hw.records rfl
        rw [← hl', List.length_take]; omega
    · intro b hb hne
      cases W with
      | none => simp [narrowB] at hb
      | some v =>
        obtain ⟨b0, rfl⟩ := Option.isSome_iff_exists.1 hBs
        simp only [narrowB, Option.map_some, Option.mem_def, Option.some.injEq] at hb
        have h1 := hroom.texts b0 rfl hne
        have h2 := hBlen v b0 rfl rfl
        have h3 := hw.texts rfl hne
        rw [← hb, List.length_take]; omega
    · intro b hb
      cases W with
      | none => simp [narrowB] at hb
      | some v =>
        obtain ⟨b0, rfl⟩ := Option.isSome_iff_exists.1 hBs
        exact hroom.scratch b0 rfl
    · intro l hl' g hg
      cases out with
      | none => simp [narrowL] at hl'
      | some o =>
        obtain ⟨l0, rfl⟩ := Option.isSome_iff_exists.1 hLs
        exact hroom.grams l0 rfl g hg
    · intro hj l hl' g hg
      cases out with
      | none => simp [narrowL] at hl'
      | some o =>
        obtain ⟨l0, rfl⟩ := Option.isSome_iff_exists.1 hLs
        simp only [narrowL, Option.map_some, Option.mem_def, Option.some.injEq] at hl'
        have h1 := hroom.lemms' hj l0 rfl g hg
        have h2 := hLlen o l0 rfl rfl
        have h3 := hw.joined rfl (by rw [Option.mem_def.1 hg]; rfl) hj
        rw [← hl', List.length_take]; omega
    · intro hj l hl' g hg
      cases out with
      | none => simp [narrowL] at hl'
      | some o =>
        obtain ⟨l0, rfl⟩ := Option.isSome_iff_exists.1 hLs
        exact hroom.grams' hj l0 rfl g hg
  obtain ⟨s', -, h2, h3⟩ := (wideLemmatize_eq hC w hlen hspec hz lmbuff szlemm hl hs out W G gs hgs).1 hroom'
  have hsp := (hspec L B G).1
  rw [hLs, ← hgs] at hsp
  obtain ⟨s, h4, h5⟩ := hsp hroom
  refine ⟨s, _, _, _, h4, h2, ?_, ⟨?_, ?_⟩, ?_, ?_⟩
  · rw [h3.grams, h5.grams, hnL, hLs]
  · cases out with
    | none => rfl
    | some o =>
      obtain ⟨l0, rfl⟩ := Option.isSome_iff_exists.1 hLs
      have h6 := hroom.lemms l0 rfl
      have h7 := hLlen o l0 rfl rfl
      simp [groupRecords_len]; omega
  · cases W with
    | none => rfl
    | some v =>
      obtain ⟨b0, rfl⟩ := Option.isSome_iff_exists.1 hBs
      simp only [Option.map_some, Option.some.injEq]
      split
      · rfl
      · rename_i hne
        have h6 := hroom.texts b0 rfl hne
        have h7 := hBlen v b0 rfl rfl
        rw [List.length_append, widePacked_length, List.length_drop, show groupTexts gs = packed (gs.map fun g => g.1.text) from rfl] at *
        omega
  · intro o' ho' i hi
    cases out with
    | none => simp at ho'
    | some o =>
      obtain ⟨l0, rfl⟩ := Option.isSome_iff_exists.1 hLs
      obtain ⟨tl, h6, -⟩ := h5.lemms
      rw [hBs] at h6
      simp only [Option.map_some, Option.some.injEq] at ho'
      subst ho'
      have hne : gs ≠ [] := by rintro rfl; simp at hi
      cases W with
      | none =>
        obtain ⟨r, hr⟩ := groupRecords_at' false G.isSome gs 0 0 i hi
        refine ⟨_, r, ⟨r.nlexid, none, r.pgrams, r.ngrams⟩, h6, ?_, ?_, ?_⟩
        · rw [List.getElem?_append_left (by rw [groupRecords_len]; exact hi)]; exact hr
        · rw [List.getElem?_append_left (by simp [groupRecords_len, hi]), List.getElem?_map]
          simp only [Option.isSome_none, hr, Option.map_some]; rfl
        · exact ⟨rfl, rfl, rfl, by intro b v _ hv; simp at hv, by intro _; simp⟩
      | some v =>
        obtain ⟨b0, rfl⟩ := Option.isSome_iff_exists.1 hBs
        obtain ⟨r, g, k, hr, hg, hk, ht, hu⟩ := groupRecords_at wide G.isSome gs 0 0 i hi
        refine ⟨_, r, ⟨r.nlexid, some r.plemma, r.pgrams, r.ngrams⟩, h6, ?_, ?_, ?_⟩
        · rw [List.getElem?_append_left (by rw [groupRecords_len]; exact hi)]; exact hr
        · rw [List.getElem?_append_left (by simp [groupRecords_len, hi]), List.getElem?_map]
          simp only [Option.isSome_some, hr, Option.map_some]; rfl
        · refine ⟨rfl, rfl, rfl, ?_, by intro h0; simp at h0⟩
          intro b v' hb hv
          have h8 := h5.texts
          simp only [Option.map_some, if_neg hne] at h8 hv
          rw [h8, Option.some.injEq] at hb
          rw [Option.some.injEq] at hv
          subst hb hv
          refine ⟨k, g.1.text, ?_, hz _ (mem_lemmGroups (hgs ▸ hg)), ?_, hu _⟩
          · simp [hk]
          · rw [hk, Nat.zero_add]; exact ht _
  · cases out with
    | none => rfl
    | some o =>
      simp [List.drop_append, groupRecords_len]

/-- The wide lemmatizer, where its own room does not suffice. -/
theorem wide_limit (hC : C.Ok byte wide) {lem : List Byte → Option (List Lemm) → Option (List Byte) → Option (List Gram) → Option (Int × LemmState)}
    {H : List LemmStep} (w : List Nat) (hlen : w.length < 240) (hspec : LemmSpec (lem (w.map byte)) H) (hz : ∀ p ∈ H, 0 ∉ p.text)
    (lmbuff : List Lemm) (szlemm : List Byte) (hl : lmbuff.length = 32) (hs : szlemm.length = 240)
    (out : Option (List LemmW)) (W : Option (List Nat)) (G : Option (List Gram))
    (gs : List LemmGroup) (hgs : gs = lemmGroups out.isSome H) (hj : JoinSafe (narrowL lmbuff out) G H)
    (hbad : (out.isSome ∧ 32 < gs.length) ∨ (W.isSome ∧ 240 ≤ (groupTexts gs).length)) :
    ∃ r G', wideLemmatize C lem lmbuff szlemm w out W G = some (r, out, W, G') ∧ r < 0 := by
  refine (wideLemmatize_eq hC w hlen hspec hz lmbuff szlemm hl hs out W G gs hgs).2 hj ?_
  intro hf
  rcases hbad with ⟨h1, h2⟩ | ⟨h1, h2⟩
  · obtain ⟨o, rfl⟩ := Option.isSome_iff_exists.1 h1
    have := hf.lemms _ (by rw [narrowL, Option.map_some]; rfl)
    rw [List.length_take] at this; omega
  · obtain ⟨v, rfl⟩ := Option.isSome_iff_exists.1 h1
    have := hf.texts _ (by rw [narrowB, Option.map_some]; rfl) (by rintro rfl; simp [groupTexts, packed] at h2)
    rw [List.length_take] at this; omega

end Libmorph
