import Verif.Spec.LemmEnd
import Verif.Lemmas.EngForms
import Verif.Lemmas.FormRun
import Mathlib.Data.List.Induction
import Mathlib.Data.List.Chain
/-
`Lemmatizer` on any sequence of readings, common to the two languages: records, dictionary forms and
descriptions, with the readings that join the record before them.
-/
namespace Libmorph

theorem lemmGroups_snoc (r : Bool) (H : List LemmStep) (p : LemmStep) :
    lemmGroups r (H ++ [p]) = joinStep r (lemmGroups r H) p := by
  simp [lemmGroups]

theorem joinStep_new {r : Bool} {gs : List LemmGroup} {p : LemmStep}
    (h : r = true → (gs.getLast?).map (fun g => g.1.id) ≠ some p.id) : joinStep r gs p = gs ++ [(p, [])] := by
  unfold joinStep
  cases hg : gs.getLast? with
  | none => rw [List.getLast?_eq_none_iff.1 hg]; rfl
  | some g =>
    simp only
    rw [if_neg]
    rintro ⟨h1, h2⟩
    exact h h1 (by rw [hg]; simp [h2])

theorem joinStep_join {gs : List LemmGroup} {g : LemmGroup} {p : LemmStep} (hid : g.1.id = p.id) :
    joinStep true (gs ++ [g]) p = gs ++ [(g.1, g.2 ++ [p])] := by
  simp [joinStep, hid]

theorem groupTexts_append (H K : List LemmGroup) : groupTexts (H ++ K) = groupTexts H ++ groupTexts K := by
  simp [groupTexts, packed_append]

theorem groupGrams_append (H K : List LemmGroup) : groupGrams (H ++ K) = groupGrams H ++ groupGrams K := by
  simp [groupGrams]

theorem groupRecords_append (f g : Bool) (x y : Nat) (H K : List LemmGroup) :
    groupRecords f g x y (H ++ K) = groupRecords f g x y H ++
      groupRecords f g (if f then x + (groupTexts H).length else x) (if g then y + (groupGrams H).length else y) K := by
  induction H generalizing x y with
  | nil => simp [groupRecords, groupTexts, groupGrams, packed]
  | cons p H ih =>
    simp only [List.cons_append, groupRecords, ih]
    congr 3
    · cases f <;> simp [groupTexts, packed_cons]; omega
    · cases g <;> simp [groupGrams]; omega

theorem groupRecords_length (f g : Bool) (x y : Nat) (H : List LemmGroup) :
    (groupRecords f g x y H).length = H.length := by
  induction H generalizing x y with
  | nil => rfl
  | cons p H ih => simp [groupRecords, ih]

theorem written_join (g : LemmGroup) (p : LemmStep) :
    LemmGroup.written (g.1, g.2 ++ [p]) = g.written ++ g.adds p := by
  simp only [LemmGroup.written, List.flatMap_append, List.flatMap_cons, List.flatMap_nil, List.append_nil, List.append_assoc]
  rfl

theorem counted_join (g : LemmGroup) (l : List LemmStep) : LemmGroup.counted (g.1, l) = g.counted := rfl

/-- Copying the descriptions of a new lemma. -/
theorem gramLoop_eq (put : Gram → Gram) (gs : List Gram) (y tl : List Gram) :
    (gs.length ≤ tl.length →
      gramLoop put none gs (y ++ tl) y.length
        = some ([], y ++ gs.map (put) ++ tl.drop gs.length, y.length + gs.length)) ∧
    (tl.length < gs.length → ∃ l b c, gramLoop put none gs (y ++ tl) y.length = some (l, b, c) ∧ l ≠ [] ∧
      b.length = (y ++ tl).length) := by
  induction gs generalizing y tl with
  | nil => simp [gramLoop]
  | cons g gs ih =>
    cases tl with
    | nil =>
      refine ⟨fun h => by simp at h, fun _ => ⟨g :: gs, y, y.length, ?_, by simp, by simp⟩⟩
      simp [gramLoop]
    | cons t tl =>
      have hset : (y ++ t :: tl).set y.length (put g) = (y ++ [put g]) ++ tl := by
        simp
      have hl : (y ++ [put g]).length = y.length + 1 := by simp
      obtain ⟨i1, i2⟩ := ih (y ++ [put g]) tl
      rw [hl] at i1 i2
      simp only [gramLoop, List.length_append, List.length_cons, bind, Option.bind_some]
      rw [if_neg (by omega)]
      simp only [hset, Bool.false_eq_true, if_false]
      refine ⟨fun h => ?_, fun h => ?_⟩
      · rw [i1 (by omega)]
        simp only [List.map_cons, List.append_assoc, List.cons_append, List.nil_append, List.drop_succ_cons,
          Option.some.injEq, Prod.mk.injEq, true_and]
        omega
      · obtain ⟨l, b, c, j1, j2, j3⟩ := i2 (by omega)
        refine ⟨l, b, c, j1, j2, ?_⟩
        rw [j3]; simp

/-- The descriptions of a lemma that is not merged, when both buffers are supplied. -/
theorem lemmGrams_eq (put : Gram → Gram) (grs : List Gram) (s : LemmState) (rs tl : List Lemm) (id fp : Nat) (y gtl : List Gram)
    (hl : s.lemms = some (rs ++ ⟨id, fp, y.length, 0⟩ :: tl)) (hc : s.lcur = rs.length)
    (hg : s.grams = some (y ++ gtl)) (hgc : s.gcur = y.length) (h32 : grs.length < 2 ^ 32) :
    (grs.length ≤ gtl.length → lemmGrams put grs false s
      = some (.ok (), { s with
          lemms := some (rs ++ ⟨id, fp, y.length, grs.length⟩ :: tl)
          grams := some (y ++ grs.map put ++ gtl.drop grs.length)
          gcur := y.length + grs.length })) ∧
    (gtl.length < grs.length → ∃ g c, lemmGrams put grs false s
      = some (.error GRAMBUFF_FAILED, { s with grams := some g, gcur := c }) ∧ g.length = (y ++ gtl).length) := by
  obtain ⟨g1, g2⟩ := gramLoop_eq put grs y gtl
  refine ⟨fun h => ?_, fun h => ?_⟩
  · simp only [lemmGrams, hl, hg, hgc, bind, Option.bind_some, if_true, g1 h, hc, pure, Bool.false_eq_true, if_false]
    have : (rs ++ (⟨id, fp, y.length, 0⟩ : Lemm) :: tl)[rs.length]? = some ⟨id, fp, y.length, 0⟩ := by simp
    rw [this]
    simp only [Option.some.injEq, Prod.mk.injEq, true_and, LemmState.mk.injEq, and_true]
    rw [List.set_append_right _ _ (Nat.le_refl _), Nat.sub_self, List.set_cons_zero]
    congr 3
    omega
  · obtain ⟨l, b, c, h1, h2, h3⟩ := g2 h
    simp only [lemmGrams, hl, hg, hgc, bind, Option.bind_some, Bool.false_eq_true, if_false, h1, if_neg h2, pure]
    exact ⟨b, c, rfl, h3⟩

/-! ### The conditions grow with the readings -/

theorem joined_snoc {r : Bool} {gs : List LemmGroup} (p : LemmStep) (h : Joined gs) : Joined (joinStep r gs p) := by
  obtain ⟨g, hg, hne⟩ := h
  unfold joinStep
  cases hl : gs.getLast? with
  | none => rw [List.getLast?_eq_none_iff.1 hl] at hg; simp at hg
  | some x =>
    obtain ⟨ys, rfl⟩ := List.getLast?_eq_some_iff.1 hl
    simp only
    split
    · exact ⟨(x.1, x.2 ++ [p]), by simp, by simp⟩
    · exact ⟨g, by simp at hg ⊢; tauto, hne⟩

theorem joinStep_le {r : Bool} (gs : List LemmGroup) (p : LemmStep) :
    gs.length ≤ (joinStep r gs p).length ∧ (∃ t, groupTexts (joinStep r gs p) = groupTexts gs ++ t) ∧
      (∃ t, groupGrams (joinStep r gs p) = groupGrams gs ++ t) ∧
      (∀ g ∈ gs, ∃ g' ∈ joinStep r gs p, g'.1 = g.1) ∧ joinStep r gs p ≠ [] := by
  unfold joinStep
  cases hl : gs.getLast? with
  | none =>
    rw [List.getLast?_eq_none_iff.1 hl]
    simp [groupTexts, groupGrams, packed]
  | some x =>
    obtain ⟨ys, rfl⟩ := List.getLast?_eq_some_iff.1 hl
    simp only
    split
    · refine ⟨by simp, ⟨[], by simp [groupTexts_append]; simp [groupTexts]⟩, ⟨x.adds p, ?_⟩, ?_, by simp⟩
      · rw [List.dropLast_concat, groupGrams_append, groupGrams_append]
        simp [groupGrams, written_join]
      · intro g hg
        rcases List.mem_append.1 hg with hg | hg
        · exact ⟨g, by simp [hg], rfl⟩
        · simp at hg; subst hg; exact ⟨(g.1, g.2 ++ [p]), by simp, rfl⟩
    · refine ⟨by simp, ⟨_, groupTexts_append _ _⟩, ⟨_, groupGrams_append _ _⟩, ?_, by simp⟩
      intro g hg; exact ⟨g, by simp at hg ⊢; tauto, rfl⟩

section
variable {L : Option (List Lemm)} {B : Option (List Byte)} {G : Option (List Gram)}

theorem GroupFits.back {r : Bool} {gs : List LemmGroup} {p : LemmStep} (h : GroupFits L B G (joinStep r gs p)) :
    GroupFits L B G gs := by
  obtain ⟨h1, ⟨t, h2⟩, ⟨u, h3⟩, h4, h5⟩ := joinStep_le (r := r) gs p
  refine ⟨?_, ?_, ?_, ?_⟩
  · intro l hl; have := h.lemms l hl; omega
  · intro b hb _
    have := h.texts b hb h5
    rw [h2, List.length_append] at this; omega
  · intro b hb g hg
    obtain ⟨g', h6, h7⟩ := h4 g hg
    rw [← h7]; exact h.scratch b hb g' h6
  · intro l hl g hg
    have := h.grams l hl g hg
    rw [h3, List.length_append] at this; omega

theorem GroupRoomy.back {r : Bool} {gs : List LemmGroup} {p : LemmStep} (h : GroupRoomy L B G (joinStep r gs p)) :
    GroupRoomy L B G gs := by
  obtain ⟨h1, -, ⟨u, h3⟩, -, -⟩ := joinStep_le (r := r) gs p
  refine ⟨h.toGroupFits.back, ?_, ?_⟩
  · intro hj l hl g hg; have := h.lemms' (joined_snoc p hj) l hl g hg; omega
  · intro hj l hl g hg
    have := h.grams' (joined_snoc p hj) l hl g hg
    rw [h3, List.length_append] at this; omega

theorem GroupBlames.snoc {r : Bool} {gs : List LemmGroup} (p : LemmStep) {e : Int} (h : GroupBlames L B G gs e) :
    GroupBlames L B G (joinStep r gs p) e := by
  obtain ⟨h1, ⟨t, h2⟩, ⟨u, h3⟩, h4, h5⟩ := joinStep_le (r := r) gs p
  rcases h with ⟨k1, l, k2, k3⟩ | ⟨k1, b, k2, k3⟩ | ⟨k1, l, g, k2, k3, k4⟩
  · left; exact ⟨k1, l, k2, by omega⟩
  · right; left
    refine ⟨k1, b, k2, ?_⟩
    rcases k3 with k3 | ⟨g, hg, k3⟩
    · left; rw [h2, List.length_append]; omega
    · right
      obtain ⟨g', h6, h7⟩ := h4 g hg
      exact ⟨g', h6, by rw [h7]; exact k3⟩
  · right; right
    refine ⟨k1, l, g, k2, k3, ?_⟩
    rw [h3, List.length_append]
    rcases k4 with k4 | ⟨k4, k5⟩
    · left; omega
    · by_cases hu : u.length = 0
      · right; exact ⟨by omega, joined_snoc p k5⟩
      · left; omega

theorem GroupRoomy.left {r : Bool} {H K : List LemmStep} (h : GroupRoomy L B G (lemmGroups r (H ++ K))) :
    GroupRoomy L B G (lemmGroups r H) := by
  induction K using List.reverseRecOn with
  | nil => simpa using h
  | append_singleton K p ih =>
    rw [← List.append_assoc, lemmGroups_snoc] at h
    exact ih h.back

theorem GroupBlames.mono {r : Bool} {H K : List LemmStep} {e : Int} (h : GroupBlames L B G (lemmGroups r H) e) :
    GroupBlames L B G (lemmGroups r (H ++ K)) e := by
  induction K using List.reverseRecOn with
  | nil => simpa using h
  | append_singleton K p ih =>
    rw [← List.append_assoc, lemmGroups_snoc]
    exact ih.snoc p

/-! ### The state of the lemmatizer -/

/-- The form buffer with `x` written. -/
def FormsHold (c : Coder) (x : List Byte) : Option (List Byte) → Prop
  | none => c = ⟨none, 0⟩
  | some b => c.Holds b x

/-- The state of the lemmatizer after readings that make up the records `gs`. -/
structure GroupHolds (L : Option (List Lemm)) (B : Option (List Byte)) (G : Option (List Gram))
    (gs : List LemmGroup) (s : LemmState) : Prop where
  nbuilt : s.nbuilt = gs.length
  lcur : s.lcur = if L.isSome then gs.length else 0
  lemms : HoldRecords B.isSome G.isSome gs L s.lemms
  forms : FormsHold s.forms (groupTexts gs) B
  fits : GroupFits L B G gs
  grams : s.grams = if L.isSome then G.map fun g => groupGrams gs ++ g.drop (groupGrams gs).length else G
  gcur : s.gcur = if L.isSome && G.isSome then (groupGrams gs).length else 0

theorem GroupHolds.init : GroupHolds L B G [] ⟨L, 0, ⟨B, 0⟩, G, 0, 0⟩ := by
  refine ⟨rfl, by simp, ?_, ?_, ⟨by simp, by simp, by simp, by simp [groupGrams]⟩, ?_, by simp [groupGrams]⟩
  · cases L with
    | none => rfl
    | some l => exact ⟨l, by simp [groupRecords], by simp, by simp, by simp⟩
  · cases B with
    | none => rfl
    | some b => exact ⟨rfl, by simp [groupTexts, packed], Or.inl ⟨rfl, rfl⟩⟩
  · cases L <;> cases G <;> simp [groupGrams]

theorem Coder.Holds.size {c : Coder} {b x : List Byte} (h : c.Holds b x) : c.buf.map List.length = some b.length := by
  obtain ⟨y, h1, h2, -⟩ := h.mem
  have := h.room
  simp [h1, h2]; omega

theorem GroupHolds.sizes {gs : List LemmGroup} {s : LemmState} (h : GroupHolds L B G gs s) : SameSizes L B G s := by
  refine ⟨?_, ?_, ?_⟩
  · have h1 := h.lemms
    cases L with
    | none => simp only [HoldRecords] at h1; simp [h1]
    | some l =>
      have := h.fits.lemms l rfl
      obtain ⟨tl, h1, h2, -, -⟩ := h1
      simp [h1, groupRecords_length]; omega
  · have := h.forms
    cases B with
    | none => simp only [FormsHold] at this; simp [this]
    | some b => exact this.size
  · rw [h.grams]
    cases L with
    | none => simp
    | some l =>
      cases G with
      | none => rfl
      | some g =>
        have := h.fits.grams l rfl g rfl
        simp; omega

theorem GroupHolds.reported {gs : List LemmGroup} {s : LemmState} (h : GroupHolds L B G gs s) : GroupReported L B G gs s := by
  refine ⟨h.lemms, ?_, h.grams⟩
  have := h.forms
  cases B with
  | none => simp only [FormsHold] at this; simp [this]
  | some b =>
    simp only [FormsHold] at this
    rw [Holds.final this]
    by_cases hH : gs = []
    · subst hH; simp [groupTexts, packed]
    · have : groupTexts gs ≠ [] := packed_ne_nil (by simpa using hH)
      simp [hH, this]

/-! ### One reading -/

/-- What the part that prints the dictionary form does. -/
structure Prints (B : Option (List Byte)) (p : LemmStep) (form : Bool → LemmState → Option (Except Int Unit × LemmState)) : Prop where
  joins : ∀ s, form true s = some (.ok (), s)
  absent : ∀ s, s.forms.buf = none → form false s = some (.ok (), s)
  good : ∀ (s : LemmState) (b x : List Byte), B = some b → s.forms.Holds b x → p.scratch ≤ 256 → (x ++ (p.text ++ [0])).length + 1 ≤ b.length →
    ∃ c, form false s = some (.ok (), { s with forms := c }) ∧ c.Holds b (x ++ (p.text ++ [0]))
  bad : ∀ (s : LemmState) (b x : List Byte), B = some b → s.forms.Holds b x →
    (256 < p.scratch ∨ b.length < (x ++ (p.text ++ [0])).length + 1) →
    ∃ c, form false s = some (.error LEMMBUFF_FAILED, { s with forms := c }) ∧ c.buf.map List.length = some b.length

/-- Opening a record. -/
theorem lemmOpen_new {gs : List LemmGroup} {s : LemmState} (hs : GroupHolds L B G gs s) (id : Nat)
    (hid : ∀ _ ∈ L, (gs.getLast?).map (fun g => g.1.id) ≠ some id) :
    (∃ l, L = some l ∧ l.length = gs.length ∧
        lemmOpen id s = some (.error LIDSBUFF_FAILED, { s with nbuilt := LIDSBUFF_FAILED })) ∨
    ((∀ l ∈ L, gs.length + 1 ≤ l.length) ∧ lemmOpen id s = some (.ok false, { s with
        lemms := L.map fun l => groupRecords B.isSome G.isSome 0 0 gs ++
          ⟨id, s.forms.pos, s.gcur, 0⟩ :: l.drop (gs.length + 1) })) := by
  cases L with
  | none =>
    right
    have : s.lemms = none := hs.lemms
    refine ⟨by simp, ?_⟩
    obtain ⟨s1, s2, s3, s4, s5, s6⟩ := s
    simp only [FormsHold] at this
    subst this
    rfl
  | some l =>
    have hroom := hs.fits.lemms l rfl
    have hcur : s.lcur = gs.length := by rw [hs.lcur]; rfl
    obtain ⟨tl, hl1, hl2, hl3, -⟩ := hs.lemms
    have hlen : (groupRecords B.isSome G.isSome 0 0 gs ++ tl).length = l.length := by
      rw [List.length_append, groupRecords_length]; omega
    -- merging is not taken
    have hfresh : lemmOpen id s = some (if gs.length = l.length then (.error LIDSBUFF_FAILED, { s with nbuilt := LIDSBUFF_FAILED })
        else (.ok false, { s with lemms := some ((groupRecords B.isSome G.isSome 0 0 gs ++ tl).set gs.length ⟨id, s.forms.pos, s.gcur, 0⟩) })) := by
      simp only [lemmOpen, hl1, hcur, hlen]
      rcases List.eq_nil_or_concat gs with rfl | ⟨ys, g, rfl⟩
      · rw [if_pos (by rw [hs.nbuilt]; rfl)]
      · rw [if_neg (by rw [hs.nbuilt]; simp; omega), if_neg (by simp)]
        have hget : (groupRecords B.isSome G.isSome 0 0 (ys ++ [g]) ++ tl)[(ys ++ [g]).length - 1]?
            = some ⟨g.1.id, if B.isSome then (groupTexts ys).length else 0, if G.isSome then (groupGrams ys).length else 0,
                if G.isSome then g.1.grs.length else 0⟩ := by
          rw [groupRecords_append]
          simp only [List.length_append, List.length_singleton, Nat.add_sub_cancel, List.append_assoc]
          rw [List.getElem?_append_right (by rw [groupRecords_length])]
          simp [groupRecords_length, groupRecords]
        rw [List.concat_eq_append, hget]
        have := hid l rfl
        simp only [List.concat_eq_append, List.getLast?_append, List.getLast?_singleton, Option.some_or, Option.map_some, ne_eq,
          Option.some.injEq] at this
        simp only [ne_eq, this, not_false_eq_true, if_true]
    by_cases hd : gs.length = l.length
    · left
      exact ⟨l, rfl, hd.symm, by rw [hfresh, if_pos hd]⟩
    · right
      refine ⟨by simp; omega, ?_⟩
      rw [hfresh, if_neg hd]
      simp only [Option.map_some, Option.some.injEq, Prod.mk.injEq, true_and]
      congr 2
      rw [List.set_append_right _ _ (by rw [groupRecords_length])]
      rw [groupRecords_length, Nat.sub_self]
      congr 1
      cases tl with
      | nil => simp at hl2; omega
      | cons t tl => simpa using hl3

/-- Joining the last record. -/
theorem lemmOpen_join {gs : List LemmGroup} {g : LemmGroup} {s : LemmState} {l : List Lemm}
    (hs : GroupHolds (some l) B G (gs ++ [g]) s) : lemmOpen g.1.id s = some (.ok true, s) := by
  obtain ⟨tl, hl1, hl2, -, -⟩ := hs.lemms
  have hcur : s.lcur = (gs ++ [g]).length := by rw [hs.lcur]; rfl
  simp only [lemmOpen, hl1, hcur]
  rw [if_neg (by rw [hs.nbuilt]; simp; omega), if_neg (by simp)]
  have hget : (groupRecords B.isSome G.isSome 0 0 (gs ++ [g]) ++ tl)[(gs ++ [g]).length - 1]?
      = some ⟨g.1.id, if B.isSome then (groupTexts gs).length else 0, if G.isSome then (groupGrams gs).length else 0,
          if G.isSome then g.1.grs.length else 0⟩ := by
    rw [groupRecords_append]
    simp only [List.length_append, List.length_singleton, Nat.add_sub_cancel, List.append_assoc]
    rw [List.getElem?_append_right (by rw [groupRecords_length])]
    simp [groupRecords_length, groupRecords]
  rw [hget]
  simp

/-- Copying the descriptions of a reading that joins a record with the descriptions `C`. -/
theorem gramLoop_join (put : Gram → Gram) (l : Lemm) (C : List Gram) (grs y tl : List Gram)
    (hl : l.pgrams + l.ngrams ≤ y.length) (hC : (y.drop l.pgrams).take l.ngrams = C) :
    let kept := (grs.filter fun r => !(C.any fun x => x.idForm = r.idForm)).map put
    (kept.length ≤ tl.length ∧ gramLoop put (some l) grs (y ++ tl) y.length
        = some ([], y ++ kept ++ tl.drop kept.length, y.length + kept.length)) ∨
    (tl.length ≤ kept.length ∧ ∃ lf b c, gramLoop put (some l) grs (y ++ tl) y.length = some (lf, b, c) ∧ lf ≠ [] ∧
      b.length = (y ++ tl).length) := by
  induction grs generalizing y tl with
  | nil => left; simp [gramLoop]
  | cons g gs ih =>
    have hhas : hasGram l (y ++ tl) g = some (C.any fun x => x.idForm = g.idForm) := by
      unfold hasGram
      rw [if_pos (by simp; omega), List.drop_append_of_le_length (by omega), List.take_append_of_le_length (by simp; omega), hC]
    cases tl with
    | nil =>
      right
      refine ⟨by simp, g :: gs, y, y.length, ?_, by simp, by simp⟩
      simp [gramLoop]
    | cons t tl =>
      have hlt : ¬ y.length = (y ++ t :: tl).length := by simp
      by_cases hk : C.any fun x => x.idForm = g.idForm
      · have := ih y (t :: tl) hl hC
        simp only [gramLoop, if_neg hlt, hhas, hk, bind, Option.bind_some, if_true, List.filter_cons, Bool.not_true,
          Bool.false_eq_true, if_false]
        exact this
      · have hk' : (C.any fun x => x.idForm = g.idForm) = false := by simpa using hk
        have hset : (y ++ t :: tl).set y.length (put g) = (y ++ [put g]) ++ tl := by simp
        have hl1 : (y ++ [put g]).length = y.length + 1 := by simp
        have := ih (y ++ [put g]) tl (by omega) (by
          rw [List.drop_append_of_le_length (by omega), List.take_append_of_le_length (by simp; omega), hC])
        rw [hl1] at this
        simp only [gramLoop, if_neg hlt, hhas, hk', bind, Option.bind_some, List.filter_cons, Bool.not_false, if_true,
          Bool.false_eq_true, if_false, hset, List.map_cons, List.length_cons]
        rcases this with ⟨h1, h2⟩ | ⟨h1, lf, b, c, h2, h3, h4⟩
        · left
          refine ⟨by omega, ?_⟩
          rw [h2]
          simp only [List.append_assoc, List.cons_append, List.nil_append, List.drop_succ_cons, Option.some.injEq, Prod.mk.injEq,
            true_and]
          omega
        · right
          exact ⟨by omega, lf, b, c, h2, h3, by rw [h4]; simp⟩

theorem lemmCallWith_ok {form : Bool → LemmState → Option (Except Int Unit × LemmState)} {put : Gram → Gram} {id : Nat}
    {grs : List Gram} {m : Bool} {s s1 s2 s3 : LemmState} (h0 : ¬ s.nbuilt < 0) (h1 : lemmOpen id s = some (.ok m, s1))
    (h2 : form m s1 = some (.ok (), s2)) (h3 : lemmGrams put grs m s2 = some (.ok (), s3)) :
    lemmCallWith form put id grs s = some (none, if m then s3 else
      { s3 with lcur := if s3.lemms.isSome then s3.lcur + 1 else s3.lcur, nbuilt := s3.nbuilt + 1 }) := by
  simp only [lemmCallWith, if_neg h0, h1, h2, h3, bind, Option.bind_some, pure]
  cases m <;> rfl

theorem lemmCallWith_grams {form : Bool → LemmState → Option (Except Int Unit × LemmState)} {put : Gram → Gram} {id : Nat}
    {grs : List Gram} {m : Bool} {s s1 s2 s3 : LemmState} (h0 : ¬ s.nbuilt < 0) (h1 : lemmOpen id s = some (.ok m, s1))
    (h2 : form m s1 = some (.ok (), s2)) (h3 : lemmGrams put grs m s2 = some (.error GRAMBUFF_FAILED, s3)) :
    lemmCallWith form put id grs s = some (some GRAMBUFF_FAILED, s3) := by
  simp only [lemmCallWith, if_neg h0, h1, h2, h3, bind, Option.bind_some, pure]
  rfl

/-- When the loop over the descriptions of a joining reading stops early. -/
theorem gramLoop_stops (put : Gram → Gram) (l : Lemm) (C : List Gram) (grs y tl : List Gram)
    (hl : l.pgrams + l.ngrams ≤ y.length) (hC : (y.drop l.pgrams).take l.ngrams = C) {lf b : List Gram} {c : Nat}
    (h : gramLoop put (some l) grs (y ++ tl) y.length = some (lf, b, c)) :
    lf = [] ↔ grs = [] ∨ (grs.dropLast.filter fun r => !(C.any fun x => x.idForm = r.idForm)).length < tl.length := by
  induction grs generalizing y tl with
  | nil => simp [gramLoop] at h; simp [← h.1]
  | cons g gs ih =>
    have hhas : hasGram l (y ++ tl) g = some (C.any fun x => x.idForm = g.idForm) := by
      unfold hasGram
      rw [if_pos (by simp; omega), List.drop_append_of_le_length (by omega), List.take_append_of_le_length (by simp; omega), hC]
    cases tl with
    | nil =>
      simp [gramLoop] at h
      simp [← h.1]
    | cons t tl =>
      have hlt : ¬ y.length = (y ++ t :: tl).length := by simp
      by_cases hgs : gs = []
      · subst hgs
        have : lf = [] := by
          simp only [gramLoop, if_neg hlt, hhas, bind, Option.bind_some] at h
          split at h <;> simp at h <;> exact h.1
        simp [this]
      have hdl : (g :: gs).dropLast = g :: gs.dropLast := by rw [List.dropLast_cons_of_ne_nil hgs]
      by_cases hk : C.any fun x => x.idForm = g.idForm
      · simp only [gramLoop, if_neg hlt, hhas, hk, bind, Option.bind_some, if_true] at h
        rw [ih y (t :: tl) hl hC h, hdl, List.filter_cons_of_neg (by simpa using hk)]
        simp [hgs]
      · have hk' : (C.any fun x => x.idForm = g.idForm) = false := by simpa using hk
        have hset : (y ++ t :: tl).set y.length (put g) = (y ++ [put g]) ++ tl := by simp
        have hl1 : (y ++ [put g]).length = y.length + 1 := by simp
        simp only [gramLoop, if_neg hlt, hhas, hk', bind, Option.bind_some, Bool.false_eq_true, if_false, hset] at h
        rw [← hl1] at h
        rw [ih (y ++ [put g]) tl (by omega) (by
          rw [List.drop_append_of_le_length (by omega), List.take_append_of_le_length (by simp; omega), hC]) h, hdl,
          List.filter_cons_of_pos (by simpa using hk')]
        simp [hgs]

/-- A reading that opens a record. -/
theorem groupStep_new {p : LemmStep} {form : Bool → LemmState → Option (Except Int Unit × LemmState)} (hp : Prints B p form)
    (h32 : p.grs.length < 2 ^ 32) {gs : List LemmGroup} {s : LemmState} (hs : GroupHolds L B G gs s)
    (hid : ∀ _ ∈ L, (gs.getLast?).map (fun g => g.1.id) ≠ some p.id) :
    (∃ s', lemmCallWith form p.put p.id p.grs s = some (none, s') ∧ GroupHolds L B G (gs ++ [(p, [])]) s') ∨
    (¬ GroupFits L B G (gs ++ [(p, [])]) ∧ ∃ r s', lemmCallWith form p.put p.id p.grs s = some (some r, s') ∧
      GroupBlames L B G (gs ++ [(p, [])]) r ∧ SameSizes L B G s' ∧ newEnd (L.map List.length) (B.map List.length) (G.map List.length) gs p = .code r) := by
  have hsz := hs.sizes
  have hnb : ¬ s.nbuilt < 0 := by rw [hs.nbuilt]; omega
  have hT1 : groupTexts (gs ++ [(p, [])]) = groupTexts gs ++ (p.text ++ [0]) := by
    rw [groupTexts_append]; simp [groupTexts, packed]
  have hG1 : groupGrams (gs ++ [(p, [])]) = groupGrams gs ++ p.grs.map p.put := by
    rw [groupGrams_append]; simp [groupGrams, LemmGroup.written, LemmGroup.counted]
  have hwd : (gs ++ [(p, ([] : List LemmStep))]).length = gs.length + 1 := by simp
  rcases lemmOpen_new hs p.id hid with ⟨l, rfl, hl, ho⟩ | ⟨hroom, ho⟩
  · right
    refine ⟨fun hr => ?_, LIDSBUFF_FAILED, { s with nbuilt := LIDSBUFF_FAILED }, ?_, Or.inl ⟨rfl, l, rfl, ?_⟩, ?_⟩
    · have := hr.lemms l rfl; simp at this; omega
    · simp [lemmCallWith, hnb, ho, retInt]
    · simp; omega
    · exact ⟨⟨hsz.lemms, hsz.texts, hsz.grams⟩, by simp [newEnd]; omega⟩
  have hn1 : ¬ ((L.map List.length).any fun l => decide (l ≤ gs.length)) = true := by
    cases L with
    | none => simp
    | some l => have := hroom l rfl; simp; omega
  set s1 : LemmState := { s with
        lemms := L.map fun l => groupRecords B.isSome G.isSome 0 0 gs ++
          ⟨p.id, s.forms.pos, s.gcur, 0⟩ :: l.drop (gs.length + 1) } with hs1
  have hs1l : s1.lemms.map List.length = L.map List.length := by
    cases L with
    | none => rfl
    | some l =>
      have := hroom l rfl
      simp [hs1, groupRecords_length]; omega
  have hstage2 : (∃ b c, B = some b ∧ (256 < p.scratch ∨ b.length < (groupTexts (gs ++ [(p, [])])).length + 1) ∧
        form false s1 = some (.error LEMMBUFF_FAILED, { s1 with forms := c }) ∧ c.buf.map List.length = B.map List.length) ∨
      ((∀ b ∈ B, p.scratch ≤ 256 ∧ (groupTexts (gs ++ [(p, [])])).length + 1 ≤ b.length) ∧
        ∃ c, form false s1 = some (.ok (), { s1 with forms := c }) ∧
          FormsHold c (groupTexts (gs ++ [(p, [])])) B) := by
    have hf := hs.forms
    cases B with
    | none =>
      right
      simp only [FormsHold] at hf
      refine ⟨by simp, s1.forms, ?_, hf⟩
      exact hp.absent s1 (by simp [hs1, hf])
    | some b =>
      simp only [FormsHold] at hf
      have hf1 : s1.forms.Holds b (groupTexts gs) := hf
      rw [hT1]
      by_cases hbad : 256 < p.scratch ∨ b.length < (groupTexts gs ++ (p.text ++ [0])).length + 1
      · left
        obtain ⟨c, c1, c2⟩ := hp.bad s1 b _ rfl hf1 hbad
        exact ⟨b, c, rfl, hbad, c1, by simpa using c2⟩
      · right
        obtain ⟨c, c1, c2⟩ := hp.good s1 b _ rfl hf1 (by omega) (by omega)
        refine ⟨?_, c, c1, c2⟩
        intro b' hb'
        simp only [Option.mem_def, Option.some.injEq] at hb'
        subst hb'; omega
  rcases hstage2 with ⟨b, c, rfl, hbad, hf, hcl⟩ | ⟨hroomB, c, hf, hc⟩
  · right
    refine ⟨fun hr => ?_, LEMMBUFF_FAILED, { s1 with forms := c }, ?_, Or.inr (Or.inl ⟨rfl, b, rfl, ?_⟩), ?_⟩
    · have h1 := hr.texts b rfl (by simp)
      have h2 := hr.scratch b rfl (p, []) (by simp)
      simp only at h2; omega
    · simp [lemmCallWith, hnb, ho, hf, retInt]
    · rcases hbad with hb | hb
      · right; exact ⟨(p, []), by simp, hb⟩
      · left; exact hb
    · refine ⟨⟨hs1l, hcl, hsz.grams⟩, ?_⟩
      rw [newEnd, if_neg hn1, if_pos]
      simp; omega
  have hn2 : ¬ ((B.map List.length).any fun b => decide (256 < p.scratch) || decide (b ≤ (groupTexts (gs ++ [(p, [])])).length)) = true := by
    cases B with
    | none => simp
    | some b => have := hroomB b rfl; simp; omega
  set s2 : LemmState := { s1 with forms := c } with hs2
  have hscr : ∀ _ ∈ B, ∀ g ∈ gs ++ [(p, [])], g.1.scratch ≤ 256 := by
    intro b hb q hq
    rcases List.mem_append.1 hq with hq | hq
    · exact hs.fits.scratch b hb q hq
    · simp at hq; subst hq; exact (hroomB b hb).1
  have hcl : c.buf.map List.length = B.map List.length := by
    cases B with
    | none => simp only [FormsHold] at hc; simp [hc]
    | some b => exact Coder.Holds.size hc
  have hrec : groupRecords B.isSome G.isSome 0 0 (gs ++ [(p, [])])
      = groupRecords B.isSome G.isSome 0 0 gs ++
        [⟨p.id, if B.isSome then (groupTexts gs).length else 0, if G.isSome then (groupGrams gs).length else 0,
          if G.isSome then p.grs.length else 0⟩] := by
    rw [groupRecords_append]; simp [groupRecords]
  have hfpos : s.forms.pos = if B.isSome then (groupTexts gs).length else 0 := by
    have := hs.forms
    cases B with
    | none => simp only [FormsHold] at this; simp [this]
    | some b => simp only [FormsHold] at this; simp [this.pos]
  have hfl : ∀ l ∈ L, (gs ++ [(p, ([] : List LemmStep))]).length ≤ l.length := by
    intro l' hl'; have := hroom l' hl'; simp; omega
  by_cases hLG : L.isSome ∧ G.isSome
  · obtain ⟨l, rfl⟩ := Option.isSome_iff_exists.1 hLG.1
    obtain ⟨g, rfl⟩ := Option.isSome_iff_exists.1 hLG.2
    have hgr := hs.fits.grams l rfl g rfl
    have hgc : s.gcur = (groupGrams gs).length := by rw [hs.gcur]; rfl
    have k := lemmGrams_eq p.put p.grs s2 (groupRecords B.isSome true 0 0 gs)
      (l.drop (gs.length + 1)) p.id s.forms.pos (groupGrams gs) (g.drop (groupGrams gs).length)
      (by simp only [hs2, hs1, hgc, Option.map_some]; rfl)
      (by rw [groupRecords_length, hs2, hs1]; simp [hs.lcur])
      (by simp only [hs2, hs1, hs.grams]; rfl) (by simp [hs2, hs1, hgc]) h32
    rw [List.length_drop, List.drop_drop] at k
    by_cases hfit : (groupGrams (gs ++ [(p, [])])).length ≤ g.length
    · left
      have hfit' : p.grs.length ≤ g.length - (groupGrams gs).length := by
        rw [hG1, List.length_append, List.length_map] at hfit; omega
      refine ⟨_, lemmCallWith_ok hnb ho hf (k.1 hfit'), ?_⟩
      simp only [Bool.false_eq_true, if_false]
      refine ⟨?_, ?_, ?_, hc, ⟨hfl, fun b hb _ => (hroomB b hb).2, hscr, ?_⟩, ?_, ?_⟩
      · simp only [hs2, hs1, hs.nbuilt]; simp
      · simp only [hs2, hs1, hs.lcur]; simp
      · refine ⟨l.drop (gs.length + 1), ?_, ?_, ?_, ?_⟩
        · rw [show (some g).isSome = true from rfl] at hrec ⊢
          rw [hrec, hfpos]
          simp
        · simp
        · simp [List.drop_drop]
        · intro _; simp
      · intro l' hl' g' hg'
        simp only [Option.mem_def, Option.some.injEq] at hg'; subst hg'; exact hfit
      · simp [hG1]
      · simp [hG1]
    · right
      have hbig : g.length - (groupGrams gs).length < p.grs.length := by
        rw [hG1, List.length_append, List.length_map] at hfit; omega
      obtain ⟨g', c', k1, k2⟩ := k.2 hbig
      refine ⟨fun hr => hfit (hr.grams l rfl g rfl), GRAMBUFF_FAILED, _, lemmCallWith_grams hnb ho hf k1,
        Or.inr (Or.inr ⟨rfl, l, g, rfl, rfl, Or.inl (by omega)⟩), ?_⟩
      · refine ⟨⟨hs1l, hcl, ?_⟩, ?_⟩
        · simp only [Option.map_some, Option.some.injEq, k2, List.length_append, List.length_drop]
          omega
        · rw [newEnd, if_neg hn1, if_neg hn2, if_pos]
          simp; omega
  · left
    have hLG' : L = none ∨ G = none := by
      cases L <;> cases G <;> simp at hLG ⊢
    have k : lemmGrams p.put p.grs false s2 = some (.ok (), s2) := by
      rcases hLG' with rfl | rfl
      · simp [lemmGrams, hs2, hs1]
      · have : s2.grams = none := by simp only [hs2, hs1, hs.grams]; split <;> rfl
        simp only [lemmGrams, this]
        cases s2.lemms <;> rfl
    have hgno : ∀ l ∈ L, ∀ g ∈ G, (groupGrams (gs ++ [(p, [])])).length ≤ g.length := by
      intro l hl g hg
      rcases hLG' with rfl | rfl
      · simp at hl
      · simp at hg
    refine ⟨_, lemmCallWith_ok hnb ho hf k, ?_⟩
    simp only [Bool.false_eq_true, if_false]
    refine ⟨?_, ?_, ?_, hc, ⟨hfl, fun b hb _ => (hroomB b hb).2, hscr, hgno⟩, ?_, ?_⟩
    · simp only [hs2, hs1, hs.nbuilt]; simp
    · simp only [hs2, hs1, hs.lcur]
      cases L <;> simp
    · cases L with
      | none => rfl
      | some l =>
        simp only [reduceCtorEq, false_or] at hLG'
        subst hLG'
        refine ⟨l.drop (gs.length + 1), ?_, by simp, by simp [List.drop_drop], by intro _; simp⟩
        simp only [hs2, hs1]
        rw [hrec, hfpos, hs.gcur]
        simp
    · simp only [hs2, hs1, hs.grams]
      rcases hLG' with rfl | rfl
      · rfl
      · rfl
    · simp only [hs2, hs1, hs.gcur]
      rcases hLG' with rfl | rfl
      · rfl
      · simp

/-- A reading that joins the last record, for buffers of any size. -/
theorem groupStep_join3 {p : LemmStep} {form : Bool → LemmState → Option (Except Int Unit × LemmState)} (hp : Prints B p form)
    {gs : List LemmGroup} {g : LemmGroup} {s : LemmState} {l : List Lemm} (hs : GroupHolds (some l) B G (gs ++ [g]) s)
    (hid : g.1.id = p.id) :
    (joinEnd (some l.length) (G.map List.length) (gs ++ [g]) g p = .done ∧
      ∃ s', lemmCallWith form p.put p.id p.grs s = some (none, s') ∧ GroupHolds (some l) B G (gs ++ [(g.1, g.2 ++ [p])]) s') ∨
    (¬ GroupRoomy (some l) B G (gs ++ [(g.1, g.2 ++ [p])]) ∧ ∃ r s', lemmCallWith form p.put p.id p.grs s = some (some r, s') ∧
      GroupBlames (some l) B G (gs ++ [(g.1, g.2 ++ [p])]) r ∧ SameSizes (some l) B G s' ∧
      joinEnd (some l.length) (G.map List.length) (gs ++ [g]) g p = .code r) ∨
    (joinEnd (some l.length) (G.map List.length) (gs ++ [g]) g p = .undefined ∧ (∃ y, G = some y) ∧ l.length ≤ (gs ++ [g]).length ∧
      lemmCallWith form p.put p.id p.grs s = none) := by
  have hsz := hs.sizes
  have hnb : ¬ s.nbuilt < 0 := by rw [hs.nbuilt]; omega
  have ho := lemmOpen_join hs
  rw [hid] at ho
  have hf := hp.joins s
  have hlen : (gs ++ [(g.1, g.2 ++ [p])]).length = (gs ++ [g]).length := by simp
  have hT1 : groupTexts (gs ++ [(g.1, g.2 ++ [p])]) = groupTexts (gs ++ [g]) := by
    rw [groupTexts_append, groupTexts_append]; simp [groupTexts]
  have hG1 : groupGrams (gs ++ [(g.1, g.2 ++ [p])]) = groupGrams (gs ++ [g]) ++ g.adds p := by
    rw [groupGrams_append, groupGrams_append]; simp [groupGrams, written_join]
  have hR1 : ∀ f b, groupRecords f b 0 0 (gs ++ [(g.1, g.2 ++ [p])]) = groupRecords f b 0 0 (gs ++ [g]) := by
    intro f b; rw [groupRecords_append, groupRecords_append]; simp [groupRecords]
  have hJ : Joined (gs ++ [(g.1, g.2 ++ [p])]) := ⟨(g.1, g.2 ++ [p]), by simp, by simp⟩
  have hfits : (∀ y ∈ G, (groupGrams (gs ++ [g]) ++ g.adds p).length ≤ y.length) →
      GroupFits (some l) B G (gs ++ [(g.1, g.2 ++ [p])]) := by
    intro hy
    refine ⟨?_, ?_, ?_, ?_⟩
    · intro l' hl'; rw [hlen]; exact hs.fits.lemms l' hl'
    · intro b hb _; rw [hT1]; exact hs.fits.texts b hb (by simp)
    · intro b hb q hq
      rcases List.mem_append.1 hq with hq | hq
      · exact hs.fits.scratch b hb q (by simp [hq])
      · simp at hq; subst hq; exact hs.fits.scratch b hb g (by simp)
    · intro l' _ y hy'; rw [hG1]; exact hy y hy'
  have hforms : FormsHold s.forms (groupTexts (gs ++ [(g.1, g.2 ++ [p])])) B := by rw [hT1]; exact hs.forms
  obtain ⟨tl, hl1, hl2, hl3, -⟩ := hs.lemms
  cases G with
  | none =>
    left
    have k : lemmGrams p.put p.grs true s = some (.ok (), s) := by
      have : s.grams = none := by rw [hs.grams]; rfl
      simp only [lemmGrams, this]
      cases s.lemms <;> rfl
    refine ⟨rfl, s, lemmCallWith_ok hnb ho hf k, ?_⟩
    refine ⟨by rw [hlen]; exact hs.nbuilt, by rw [hlen]; exact hs.lcur, ?_, hforms, hfits (by simp), hs.grams, by
      rw [hs.gcur]; simp⟩
    refine ⟨tl, by rw [hR1]; exact hl1, by rw [hlen]; exact hl2, by rw [hlen]; exact hl3, fun h => absurd hJ h⟩
  | some y =>
    have hgr := hs.fits.grams l rfl y rfl
    have hgc : s.gcur = (groupGrams (gs ++ [g])).length := by rw [hs.gcur]; rfl
    have hgm : s.grams = some (groupGrams (gs ++ [g]) ++ y.drop (groupGrams (gs ++ [g])).length) := by rw [hs.grams]; rfl
    have hcur : s.lcur = (gs ++ [g]).length := by rw [hs.lcur]; rfl
    have hwr : groupGrams (gs ++ [g]) = groupGrams gs ++ (g.counted ++ g.2.flatMap g.adds) := by
      rw [groupGrams_append]; simp [groupGrams, LemmGroup.written]
    have hcl : g.counted.length = g.1.grs.length := by simp [LemmGroup.counted]
    have hget : (groupRecords B.isSome true 0 0 (gs ++ [g]) ++ tl)[s.lcur - 1]?
        = some ⟨g.1.id, if B.isSome then (groupTexts gs).length else 0, (groupGrams gs).length, g.1.grs.length⟩ := by
      rw [hcur, groupRecords_append]
      simp only [List.length_append, List.length_singleton, Nat.add_sub_cancel, List.append_assoc]
      rw [List.getElem?_append_right (by rw [groupRecords_length])]
      simp [groupRecords_length, groupRecords]
    have hjoin := gramLoop_join p.put ⟨g.1.id, if B.isSome then (groupTexts gs).length else 0, (groupGrams gs).length, g.1.grs.length⟩
      g.counted p.grs (groupGrams (gs ++ [g])) (y.drop (groupGrams (gs ++ [g])).length)
      (by simp only [hwr, List.length_append]; omega)
      (by
        simp only [hwr]
        rw [List.drop_left, ← hcl, List.take_left])
    simp only at hjoin
    rw [show ((p.grs.filter fun r => !(g.counted.any fun x => decide (x.idForm = r.idForm))).map p.put) = g.adds p from rfl,
      List.length_drop] at hjoin
    have hloop : ∀ {lf b : List Gram} {c : Nat}, gramLoop p.put (some ⟨g.1.id, if B.isSome then (groupTexts gs).length else 0, (groupGrams gs).length, g.1.grs.length⟩)
        p.grs (groupGrams (gs ++ [g]) ++ y.drop (groupGrams (gs ++ [g])).length) (groupGrams (gs ++ [g])).length = some (lf, b, c) →
        (lf ≠ [] ↔ p.grs ≠ [] ∧ y.length ≤ (groupGrams (gs ++ [g])).length + (g.adds { p with grs := p.grs.dropLast }).length) := by
      intro lf b c hg
      rw [Ne, gramLoop_stops p.put _ g.counted p.grs _ _ (by simp only [hwr, List.length_append]; omega) (by
        simp only [hwr]
        rw [List.drop_left, ← hcl, List.take_left]) hg]
      rw [LemmGroup.adds, List.length_map, List.length_drop]
      simp only [not_or, Nat.not_lt]
      constructor
      · rintro ⟨h1, h2⟩; exact ⟨h1, by omega⟩
      · rintro ⟨h1, h2⟩; exact ⟨h1, by omega⟩
    have hfail : ∀ (b' : List Gram) (c' : Nat), lemmGrams p.put p.grs true s = some (.error GRAMBUFF_FAILED, { s with grams := some b', gcur := c' }) →
        y.length - (groupGrams (gs ++ [g])).length ≤ (g.adds p).length → b'.length = (groupGrams (gs ++ [g]) ++ y.drop (groupGrams (gs ++ [g])).length).length →
        joinEnd (some l.length) ((some y).map List.length) (gs ++ [g]) g p = .code GRAMBUFF_FAILED →
        ¬ GroupRoomy (some l) B (some y) (gs ++ [(g.1, g.2 ++ [p])]) ∧ ∃ r s', lemmCallWith form p.put p.id p.grs s = some (some r, s') ∧
          GroupBlames (some l) B (some y) (gs ++ [(g.1, g.2 ++ [p])]) r ∧ SameSizes (some l) B (some y) s' ∧
          joinEnd (some l.length) ((some y).map List.length) (gs ++ [g]) g p = .code r := by
      intro b' c' k h1 h4 he
      refine ⟨fun hr => ?_, GRAMBUFF_FAILED, _, lemmCallWith_grams hnb ho hf k,
        Or.inr (Or.inr ⟨rfl, l, y, rfl, rfl, ?_⟩), ?_, he⟩
      · have := hr.grams' hJ l rfl y rfl
        rw [hG1, List.length_append] at this; omega
      · rw [hG1, List.length_append]
        by_cases hlt2 : y.length < (groupGrams (gs ++ [g])).length + (g.adds p).length
        · exact Or.inl hlt2
        · exact Or.inr ⟨by omega, hJ⟩
      · refine ⟨hsz.lemms, hsz.texts, ?_⟩
        simp only [Option.map_some, Option.some.injEq, h4, List.length_append, List.length_drop]
        omega
    cases tl with
    | nil =>
      have hfull : l.length = (gs ++ [g]).length := by
        have h1 := hs.fits.lemms l rfl
        rw [List.length_nil] at hl2; omega
      have hnone : (groupRecords B.isSome true 0 0 (gs ++ [g]) ++ [])[s.lcur]? = none := by
        rw [hcur, List.append_nil, List.getElem?_eq_none (by rw [groupRecords_length])]
      have hl1' : s.lemms = some (groupRecords B.isSome true 0 0 (gs ++ [g]) ++ []) := hl1
      rcases hjoin with ⟨h1, h2⟩ | ⟨h1, lf, b', c', h2, h3, h4⟩
      · right; right
        have k : lemmGrams p.put p.grs true s = none := by
          simp only [lemmGrams, hl1', hgm, hget, hgc, Option.map_some, bind, Option.bind_some, if_true, h2, hnone]
        refine ⟨?_, ⟨y, rfl⟩, by omega, ?_⟩
        · rw [Option.map_some, joinEnd, if_neg ((hloop h2).not.1 (by simp)), if_pos (by omega)]
        · simp only [lemmCallWith, if_neg hnb, ho, hf, k, bind, Option.bind_some, Option.bind_none]
      · right; left
        have k : lemmGrams p.put p.grs true s = some (.error GRAMBUFF_FAILED, { s with grams := some b', gcur := c' }) := by
          simp only [lemmGrams, hl1', hgm, hget, hgc, Option.map_some, bind, Option.bind_some, if_true, h2, if_neg h3, pure]
        exact hfail b' c' k h1 h4 (by rw [Option.map_some, joinEnd, if_pos ((hloop h2).1 h3)])
    | cons t tl =>
      have hget2 : (groupRecords B.isSome true 0 0 (gs ++ [g]) ++ t :: tl)[s.lcur]? = some t := by
        rw [hcur, List.getElem?_append_right (by rw [groupRecords_length]), groupRecords_length]
        simp
      have hset : ∀ x, (groupRecords B.isSome true 0 0 (gs ++ [g]) ++ t :: tl).set s.lcur x
          = groupRecords B.isSome true 0 0 (gs ++ [g]) ++ x :: tl := by
        intro x
        rw [hcur, List.set_append_right _ _ (by rw [groupRecords_length]), groupRecords_length]
        simp
      have hl1' : s.lemms = some (groupRecords B.isSome true 0 0 (gs ++ [g]) ++ t :: tl) := hl1
      rcases hjoin with ⟨h1, h2⟩ | ⟨h1, lf, b', c', h2, h3, h4⟩
      · left
        have k : lemmGrams p.put p.grs true s = some (.ok (), { s with
            lemms := some (groupRecords B.isSome true 0 0 (gs ++ [g]) ++ { t with ngrams := ((groupGrams (gs ++ [g])).length + (g.adds p).length + 2 ^ 32 - t.pgrams) % 2 ^ 32 } :: tl)
            grams := some (groupGrams (gs ++ [g]) ++ g.adds p ++ (y.drop (groupGrams (gs ++ [g])).length).drop (g.adds p).length)
            gcur := (groupGrams (gs ++ [g])).length + (g.adds p).length }) := by
          simp only [lemmGrams, hl1', hgm, hget, hgc, Option.map_some, bind, Option.bind_some, if_true, h2, hget2, pure, hset]
        have hroomy : ¬ l.length ≤ (gs ++ [g]).length := by
          rw [List.length_cons] at hl2; omega
        refine ⟨by rw [Option.map_some, joinEnd, if_neg ((hloop h2).not.1 (by simp)), if_neg hroomy], _, lemmCallWith_ok hnb ho hf k, ?_⟩
        simp only [if_true]
        refine ⟨by rw [hlen]; exact hs.nbuilt, by rw [hlen]; exact hs.lcur, ?_, hforms, hfits ?_, ?_, ?_⟩
        · refine ⟨{ t with ngrams := ((groupGrams (gs ++ [g])).length + (g.adds p).length + 2 ^ 32 - t.pgrams) % 2 ^ 32 } :: tl, ?_, ?_, ?_,
            fun h => absurd hJ h⟩
          · rw [hR1]; rfl
          · rw [hlen]; simpa using hl2
          · rw [hlen]; simpa using hl3
        · intro y' hy'
          simp only [Option.mem_def, Option.some.injEq] at hy'; subst hy'
          rw [List.length_append]; omega
        · rw [hG1]; simp [List.drop_drop]
        · rw [hG1]; simp
      · right; left
        have k : lemmGrams p.put p.grs true s = some (.error GRAMBUFF_FAILED, { s with grams := some b', gcur := c' }) := by
          simp only [lemmGrams, hl1', hgm, hget, hgc, Option.map_some, bind, Option.bind_some, if_true, h2, if_neg h3, pure]
        exact hfail b' c' k h1 h4 (by rw [Option.map_some, joinEnd, if_pos ((hloop h2).1 h3)])

/-- A reading that joins the last record while there is a record behind it. -/
theorem groupStep_join {p : LemmStep} {form : Bool → LemmState → Option (Except Int Unit × LemmState)} (hp : Prints B p form)
    {gs : List LemmGroup} {g : LemmGroup} {s : LemmState} {l : List Lemm} (hs : GroupHolds (some l) B G (gs ++ [g]) s)
    (hid : g.1.id = p.id) (hsafe : ∀ _ ∈ G, (gs ++ [g]).length < l.length) :
    (∃ s', lemmCallWith form p.put p.id p.grs s = some (none, s') ∧ GroupHolds (some l) B G (gs ++ [(g.1, g.2 ++ [p])]) s') ∨
    (¬ GroupRoomy (some l) B G (gs ++ [(g.1, g.2 ++ [p])]) ∧ ∃ r s', lemmCallWith form p.put p.id p.grs s = some (some r, s') ∧
      GroupBlames (some l) B G (gs ++ [(g.1, g.2 ++ [p])]) r ∧ SameSizes (some l) B G s') := by
  rcases groupStep_join3 hp hs hid with ⟨-, h⟩ | ⟨h1, r, s', h2, h3, h4, -⟩ | ⟨-, ⟨y, hy⟩, h, -⟩
  · exact Or.inl h
  · exact Or.inr ⟨h1, r, s', h2, h3, h4⟩
  · have := hsafe y hy; omega

/-- All the readings. -/
theorem groupRun {α : Type} (step : α → LemmStep) (form : α → Bool → LemmState → Option (Except Int Unit × LemmState))
    (act : α → LemmState → Option (Option Int × LemmState)) (V : List α)
    (hact : ∀ v ∈ V, ∀ s, act v s = lemmCallWith (form v) (step v).put (step v).id (step v).grs s)
    (hp : ∀ v ∈ V, Prints B (step v) (form v)) (h32 : ∀ v ∈ V, (step v).grs.length < 2 ^ 32)
    {done : List LemmStep} {s : LemmState} (hs : GroupHolds L B G (lemmGroups L.isSome done) s)
    (hsafe : JoinSafe L G (done ++ V.map step)) :
    (∃ s', runList act V s = some (none, s') ∧ GroupHolds L B G (lemmGroups L.isSome (done ++ V.map step)) s') ∨
    (¬ GroupRoomy L B G (lemmGroups L.isSome (done ++ V.map step)) ∧ ∃ r s', runList act V s = some (some r, s') ∧
      GroupBlames L B G (lemmGroups L.isSome (done ++ V.map step)) r ∧ SameSizes L B G s') := by
  induction V generalizing done s with
  | nil =>
    left
    exact ⟨s, rfl, by simpa using hs⟩
  | cons v V ih =>
    have hstep : (∃ s', act v s = some (none, s') ∧ GroupHolds L B G (lemmGroups L.isSome (done ++ [step v])) s') ∨
        (¬ GroupRoomy L B G (lemmGroups L.isSome (done ++ [step v])) ∧ ∃ r s', act v s = some (some r, s') ∧
          GroupBlames L B G (lemmGroups L.isSome (done ++ [step v])) r ∧ SameSizes L B G s') := by
      rw [hact v (by simp) s, lemmGroups_snoc]
      by_cases hj : L.isSome = true ∧ ((lemmGroups L.isSome done).getLast?).map (fun g => g.1.id) = some (step v).id
      · obtain ⟨l, rfl⟩ := Option.isSome_iff_exists.1 hj.1
        obtain ⟨g, hg1, hg2⟩ := Option.map_eq_some_iff.1 hj.2
        obtain ⟨ys, hys⟩ := List.getLast?_eq_some_iff.1 hg1
        have hlt : ∀ _ ∈ G, (lemmGroups true done).length < l.length := fun y hy =>
          hsafe l rfl y hy done (step v) (V.map step) (by simp) hj.2
        simp only [Option.isSome_some] at hys hs hlt ⊢
        rw [hys] at hs hlt ⊢
        rw [joinStep_join hg2]
        exact groupStep_join (hp v (by simp)) hs hg2 hlt
      · rw [joinStep_new (fun h1 h2 => hj ⟨h1, h2⟩)]
        rcases groupStep_new (hp v (by simp)) (h32 v (by simp)) hs
          (fun l hl h2 => hj ⟨by rw [hl]; rfl, h2⟩) with h1 | ⟨h1, r, s', h2, h3, h4, -⟩
        · exact Or.inl h1
        · exact Or.inr ⟨fun hr => h1 hr.toGroupFits, r, s', h2, h3, h4⟩
    have happ : done ++ (v :: V).map step = (done ++ [step v]) ++ V.map step := by simp
    rw [happ] at hsafe ⊢
    simp only [runList]
    rcases hstep with ⟨s', h1, h2⟩ | ⟨h0, r, s', h1, h2, h3⟩
    · rw [h1]
      simp only
      exact ih (fun q hq => hact q (by simp [hq])) (fun q hq => hp q (by simp [hq])) (fun q hq => h32 q (by simp [hq])) h2 hsafe
    · rw [h1]
      simp only
      exact Or.inr ⟨fun hr => h0 hr.left, r, s', rfl, h2.mono, h3⟩

/-- Room for what joins records is enough for the library not to write behind the record buffer. -/
theorem GroupRoomy.safe {H : List LemmStep} (h : GroupRoomy L B G (lemmGroups L.isSome H)) : JoinSafe L G H := by
  intro l hl y hy P p Q hH hid
  simp only [Option.mem_def] at hl
  subst hl hH
  rw [show P ++ p :: Q = (P ++ [p]) ++ Q by simp] at h
  have h1 := h.left
  obtain ⟨g, hg1, hg2⟩ := Option.map_eq_some_iff.1 hid
  obtain ⟨ys, hys⟩ := List.getLast?_eq_some_iff.1 hg1
  simp only [Option.isSome_some] at h1
  rw [lemmGroups_snoc, hys, joinStep_join hg2] at h1
  have := h1.lemms' ⟨(g.1, g.2 ++ [p]), by simp, by simp⟩ l rfl y hy
  rw [hys]; simp at this ⊢; omega

end

/-- When no two readings in a row belong to one lexeme, every reading has its own record. -/
theorem lemmGroups_apart (r : Bool) (H : List LemmStep) (h : r = true → (H.map LemmStep.id).IsChain (· ≠ ·)) :
    lemmGroups r H = H.map fun p => (p, []) := by
  induction H using List.reverseRecOn with
  | nil => rfl
  | append_singleton H p ih =>
    have hH : r = true → (H.map LemmStep.id).IsChain (· ≠ ·) := by
      intro hr
      have := h hr
      rw [List.map_append] at this
      exact (List.isChain_append.1 this).1
    rw [lemmGroups_snoc, ih hH, joinStep_new]
    · simp
    · intro hr hc
      have := h hr
      rw [List.map_append, List.isChain_append] at this
      have h3 := this.2.2
      simp only [List.getLast?_map, Option.map_map, Option.map_eq_some_iff] at hc
      obtain ⟨q, hq, hc⟩ := hc
      exact h3 q.id (by simp [hq]) p.id (by simp) hc

end Libmorph
