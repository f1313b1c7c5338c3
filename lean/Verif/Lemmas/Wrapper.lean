import Verif.Lemmas.EngLemm
import Verif.Model.Wrapper
/-
What the C++ wrappers read back from the buffers.
-/
namespace Libmorph

theorem printed_text (d : Nat) (hd : d ≤ 2) (w : List Byte) (hw : Text w) : Text (printed d w) := by
  have h1 := (capSet_printed w [] d hd hw).1
  obtain ⟨w2, h4, h5⟩ := C16_only_case engTab engTab_ok engTab_upOk w [] d hw
  have he : w2 = printed d w := by
    rw [h1] at h4
    simpa using h4.symm
  rw [← he]
  clear h1 h4 he
  induction h5 with
  | nil => intro b hb; simp at hb
  | @cons a b l1 l2 hab _ ih =>
    intro c hc
    have ha := hw a (by simp)
    rcases List.mem_cons.1 hc with rfl | hc
    · rcases hab with rfl | ⟨h1, rfl⟩
      · exact ha
      · exact engUpper_byte a ha.2 h1
    · exact ih (fun x hx => hw x (by simp [hx])) c hc

theorem takeWhile_text (w tail : List Byte) (hw : Text w) : (w ++ 0 :: tail).takeWhile (· != 0) = w := by
  induction w with
  | nil => simp
  | cons c w ih =>
    have := (hw c (by simp)).1
    simp [this, ih (fun x hx => hw x (by simp [hx]))]

theorem cstring_text (w tail : List Byte) (hw : Text w) : cstring (w ++ 0 :: tail) = some w := by
  rw [cstring, if_pos (by simp), takeWhile_text w tail hw]

theorem splitForms_packed (fs : List (List Byte)) (rest : List Byte) (h : ∀ f ∈ fs, Text f) :
    splitForms fs.length (packed fs ++ rest) = some fs := by
  induction fs with
  | nil => rfl
  | cons f fs ih =>
    have := ih (fun x hx => h x (by simp [hx]))
    simp only [List.length_cons, splitForms, packed_cons, List.append_assoc, List.cons_append,
      cstring_text f _ (h f (by simp)), bind, Option.bind_some]
    rw [show f ++ 0 :: (packed fs ++ rest) = (f ++ [0]) ++ (packed fs ++ rest) by simp,
      List.drop_left' (by simp), this]
    rfl

/-- What the wrapper reads off a form outcome with 256 bytes. -/
theorem wrap_outcome {r : Option (Int × Option (List Byte))} {fs : List (List Byte)} {scratch : Prop} {B : List Byte}
    (h : FormOutcome r fs scratch B) (ht : ∀ f ∈ fs, Text f) [Decidable scratch] :
    (r.bind fun x => splitForms x.1.toNat (x.2.getD []))
      = some (if scratch ∧ (packed fs).length + 1 ≤ B.length then fs else []) := by
  obtain ⟨h1, h2, h3⟩ := h
  by_cases hsc : scratch
  · by_cases h0 : fs = []
    · rw [h1 h0 hsc]; simp [h0, splitForms]
    · by_cases hfit : (packed fs).length + 1 ≤ B.length
      · rw [h2 h0 hsc hfit, if_pos ⟨hsc, hfit⟩]
        simp only [Option.bind_some, Int.toNat_natCast, Option.getD_some]
        exact splitForms_packed fs _ ht
      · obtain ⟨b, hb, -⟩ := h3 (Or.inr ⟨h0, by omega⟩)
        rw [hb, if_neg (by simp [hfit])]
        simp [splitForms]
  · obtain ⟨b, hb, -⟩ := h3 (Or.inl hsc)
    rw [hb, if_neg (by simp [hsc])]
    simp [splitForms]

theorem FormOutcome.defined {r : Option (Int × Option (List Byte))} {fs : List (List Byte)} {scratch : Prop} {B : List Byte}
    (h : FormOutcome r fs scratch B) :
    ∃ n b, r = some (n, some b) ∧ b.length = B.length ∧ (n = -1 ∨ n = fs.length) := by
  obtain ⟨h1, h2, h3⟩ := h
  by_cases hsc : scratch
  · by_cases h0 : fs = []
    · exact ⟨_, _, h1 h0 hsc, rfl, Or.inr (by simp [h0])⟩
    · by_cases hfit : (packed fs).length + 1 ≤ B.length
      · exact ⟨_, _, h2 h0 hsc hfit, by simp; omega, Or.inr rfl⟩
      · obtain ⟨b, hb, hl⟩ := h3 (Or.inr ⟨h0, by omega⟩)
        exact ⟨_, _, hb, hl, Or.inl rfl⟩
  · obtain ⟨b, hb, hl⟩ := h3 (Or.inl hsc)
    exact ⟨_, _, hb, hl, Or.inl rfl⟩

theorem delivered_sub_built (a : Article) (i : Nat) : ∀ f ∈ a.delivered i, f ∈ a.built i := by
  intro f hf
  simp only [Article.delivered] at hf
  simp only [Article.built]
  split at hf
  · rename_i hi
    rw [if_pos hi]
    split at hf
    · simp at hf
    · exact hf
  · rename_i hi
    rw [if_neg hi]
    split at hf
    · exact hf
    · simp at hf

theorem EngOk.deliveredText {A : List Byte} {as : List Article} (h : EngOk A as) {a : Article} (ha : a ∈ as) (i : Nat) :
    ∀ f ∈ (a.delivered i).map (printed a.demand), Text f := by
  intro f hf
  obtain ⟨g, hg, rfl⟩ := List.mem_map.1 hf
  exact printed_text _ (demand_le a) _ (h.builtText ha i g (delivered_sub_built a i g hg))

theorem printed_packed_length {A : List Byte} {as : List Article} (h : EngOk A as) {a : Article} (ha : a ∈ as) (i : Nat) :
    (packed ((a.delivered i).map (printed a.demand))).length = (packed (a.delivered i)).length := by
  have ht : ∀ f ∈ a.delivered i, Text f := fun f hf => h.builtText ha i f (delivered_sub_built a i f hf)
  generalize a.delivered i = l at ht ⊢
  induction l with
  | nil => rfl
  | cons f l ih =>
    have h1 := ih (fun x hx => ht x (by simp [hx]))
    have h2 := printed_length a.demand (demand_le a) f (ht f (by simp))
    simp only [List.map_cons, packed_cons, List.length_append, List.length_cons]
    omega

/-! ### Lexemes -/

/-- The lexeme the wrapper makes of a reading. -/
def lexemeOf (p : Article × List Byte) : Lexeme := ⟨p.1.id, p.1.lemma, p.1.described p.2⟩

theorem readLexemes (H : List (Article × List Byte)) (ht : ∀ p ∈ H, Text p.1.lemma) (t0 tl : List Byte) (g0 gl : List Gram) :
    (lemmRecords true true t0.length g0.length H).mapM (readLexeme (t0 ++ lemmTexts H ++ tl) (g0 ++ lemmGramsAll H ++ gl))
      = some (H.map lexemeOf) := by
  induction H generalizing t0 g0 with
  | nil => rfl
  | cons p H ih =>
    simp only [lemmRecords, if_true, List.mapM_cons, List.map_cons]
    have hr : readLexeme (t0 ++ lemmTexts (p :: H) ++ tl) (g0 ++ lemmGramsAll (p :: H) ++ gl)
        ⟨p.1.id, t0.length, g0.length, (p.1.described p.2).length⟩ = some (lexemeOf p) := by
      have e1 : (t0 ++ lemmTexts (p :: H) ++ tl).drop t0.length = p.1.lemma ++ 0 :: (lemmTexts H ++ tl) := by
        rw [List.append_assoc, List.drop_left]
        simp [lemmTexts, packed_cons]
      have e2 : (g0 ++ lemmGramsAll (p :: H) ++ gl).drop g0.length = p.1.described p.2 ++ (lemmGramsAll H ++ gl) := by
        rw [List.append_assoc, List.drop_left]
        simp [lemmGramsAll]
      simp only [readLexeme, e1, cstring_text _ _ (ht p (by simp)), bind, Option.bind_some, e2]
      split
      · rw [if_pos (by simp [lemmGramsAll]), List.take_left' rfl]; rfl
      · rename_i h0
        simp only [ne_eq, not_not, List.length_eq_zero_iff] at h0
        simp [lexemeOf, h0]
    rw [hr]
    have := ih (fun q hq => ht q (by simp [hq])) (t0 ++ p.1.lemma ++ [0]) (g0 ++ p.1.described p.2)
    have e1 : t0 ++ p.1.lemma ++ [0] ++ lemmTexts H ++ tl = t0 ++ lemmTexts (p :: H) ++ tl := by
      simp [lemmTexts, packed_cons]
    have e2 : g0 ++ p.1.described p.2 ++ lemmGramsAll H ++ gl = g0 ++ lemmGramsAll (p :: H) ++ gl := by
      simp [lemmGramsAll]
    rw [e1, e2] at this
    simp only [List.length_append, List.length_cons, List.length_nil, Nat.zero_add] at this
    simp only [bind, Option.bind_some, this]
    rfl

theorem Reported.sizes {L : Option (List Lemm)} {B : Option (List Byte)} {G : Option (List Gram)}
    {H : List (Article × List Byte)} {s : LemmState} (h : Reported L B G H s) (hr : Roomy L B G H) : SameSizes L B G s := by
  refine ⟨?_, ?_, ?_⟩
  · rw [h.lemms]
    cases L with
    | none => rfl
    | some l =>
      have := hr.lemms l rfl
      simp [lemmRecords_length]; omega
  · rw [h.texts]
    cases B with
    | none => rfl
    | some b =>
      simp only [Option.map_some, Option.some.injEq]
      split
      · rfl
      · rename_i h0
        have := hr.texts b rfl h0
        simp; omega
  · rw [h.grams]
    cases L with
    | none => simp
    | some l =>
      cases G with
      | none => rfl
      | some g =>
        have := hr.grams l rfl g rfl
        simp; omega

end Libmorph
