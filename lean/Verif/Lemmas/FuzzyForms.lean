import Verif.Lemmas.FuzzyApi
/-
BuildForm and GetModels of the fuzzy analysers.
-/
namespace Libmorph

variable {ω : Type} {R : FuzzyRank ω} {L : FuzzyLang} {cs : List FuzzyClass} {w : List Byte}

/-- The image of endings. -/
def flexesSer (fs : List (Byte × List Byte)) : List Byte := (fs.map fuzzyFlexSer).flatten

theorem flexesSer_cons (f : Byte × List Byte) (fs : List (Byte × List Byte)) (h : f.2.length < 256) (tl : List Byte) :
    flexesSer (f :: fs) ++ tl = f.1 :: f.2.length :: (f.2 ++ (flexesSer fs ++ tl)) := by
  rw [flexesSer, List.map_cons, List.flatten_cons, fuzzyFlexSer, Nat.mod_eq_of_lt h, List.take_length]
  simp [flexesSer]

theorem skipForms_ser (id : Nat) (fs : List (Byte × List Byte)) (h : ∀ f ∈ fs, f.2.length < 256) (tl : List Byte) :
    skipForms id fs.length (flexesSer fs ++ tl) =
      some ((fs.dropWhile (·.1 < id)).length, flexesSer (fs.dropWhile (·.1 < id)) ++ tl) := by
  induction fs with
  | nil => rfl
  | cons f fs ih =>
    rw [List.length_cons, skipForms, flexesSer_cons f fs (h f (by simp))]
    simp only [getbyte, Option.bind_eq_bind, Option.bind_some]
    by_cases hlt : f.1 < id
    · rw [if_pos hlt, List.dropWhile_cons_of_pos (by simpa using hlt), List.drop_left]
      exact ih fun f hf => h f (by simp [hf])
    · rw [if_neg hlt, List.dropWhile_cons_of_neg (by simpa using hlt), flexesSer_cons f fs (h f (by simp))]; rfl

theorem skipFlexes_ser (fs : List (Byte × List Byte)) (h : ∀ f ∈ fs, f.2.length < 256) (tl : List Byte) :
    skipFlexes fs.length (flexesSer fs ++ tl) = some tl := by
  induction fs with
  | nil => rfl
  | cons f fs ih =>
    rw [List.length_cons, skipFlexes, flexesSer_cons f fs (h f (by simp))]
    simp only [getbyte, Option.bind_eq_bind, Option.bind_some]
    rw [List.drop_left]
    exact ih fun f hf => h f (by simp [hf])

theorem zeroed_cons (x : List Byte) (xs : List (List Byte)) : zeroed (x :: xs) = x ++ 0 :: zeroed xs := by simp [zeroed]

/-- The loop over the endings of a form number. -/
theorem fuzzyFormLoop_eq (hL : L = rusFuzzy ∨ L = engFuzzy) (stem : List Byte) (hw : Text stem) (partsp : Nat) (hp : partsp < 64)
    (id : Nat) (tl B : List Byte) (fs : List (Byte × List Byte)) (h : ∀ f ∈ fs, f.2.length < 256 ∧ Text f.2) :
    ∀ (junk x : List Byte) (c : Coder) (nb : Nat), c.Holds B x →
    (∀ f ∈ fs.takeWhile (·.1 = id), stem.length + f.2.length ≤ 64 → FuzzyStops L junk (stem.length + f.2.length)) →
    (((∀ f ∈ fs.takeWhile (·.1 = id), stem.length + f.2.length ≤ 64) ∧
      (fs.takeWhile (·.1 = id) ≠ [] →
        (x ++ zeroed ((fs.takeWhile (·.1 = id)).map fun f => L.printed (pspMinCap partsp) (stem ++ f.2))).length < B.length)) →
      ∃ c', fuzzyFormLoop L stem partsp id fs.length (flexesSer fs ++ tl) junk c nb =
          some (((nb + (fs.takeWhile (·.1 = id)).length : Nat) : Int), c') ∧
        c'.Holds B (x ++ zeroed ((fs.takeWhile (·.1 = id)).map fun f => L.printed (pspMinCap partsp) (stem ++ f.2)))) ∧
    (¬ ((∀ f ∈ fs.takeWhile (·.1 = id), stem.length + f.2.length ≤ 64) ∧
      (fs.takeWhile (·.1 = id) ≠ [] →
        (x ++ zeroed ((fs.takeWhile (·.1 = id)).map fun f => L.printed (pspMinCap partsp) (stem ++ f.2))).length < B.length)) →
      ∃ e c', fuzzyFormLoop L stem partsp id fs.length (flexesSer fs ++ tl) junk c nb = some (e, c') ∧
        e ∈ [LEMMBUFF_FAILED, WORDBUFF_FAILED]) := by
  induction fs with
  | nil =>
    intro junk x c nb hc _
    constructor
    · intro _; exact ⟨c, rfl, by simpa [zeroed] using hc⟩
    · intro hn; exact absurd ⟨by simp, by simp⟩ hn
  | cons f fs ih =>
    intro junk x c nb hc hj
    have hf := h f (by simp)
    rw [List.length_cons, fuzzyFormLoop, flexesSer_cons f fs hf.1]
    simp only [getbyte, Option.bind_eq_bind, Option.bind_some]
    by_cases hid : f.1 = id
    · have htw : (f :: fs).takeWhile (·.1 = id) = f :: fs.takeWhile (·.1 = id) := by
        rw [List.takeWhile_cons_of_pos (by simpa using hid)]
      rw [if_neg (by simpa using hid), htw]
      rw [htw] at hj
      by_cases h64 : stem.length + f.2.length > 0x40
      · rw [if_pos h64]
        constructor
        · rintro ⟨h1, -⟩
          have := h1 f (by simp)
          omega
        · intro _; exact ⟨_, _, rfl, by simp⟩
      · rw [if_neg h64, strncpyOf_eq _ _ fun b hb => (hf.2 b hb).1]
        simp only [Option.bind_some]
        obtain ⟨mem, hff, hmem⟩ := fuzzyForm_eq hL junk stem f.2 partsp hp (by omega) (Text.append hw hf.2) (hj f (by simp) (by omega))
        rw [hff]
        simp only [Option.bind_some]
        have hap := Coder.appendz_eq hc (L.printed (pspMinCap partsp) (stem ++ f.2))
        generalize hP : L.printed (pspMinCap partsp) (stem ++ f.2) = P at *
        have hlen : (x ++ zeroed ((f :: List.takeWhile (fun (g : Byte × List Byte) => decide (g.1 = id)) fs).map fun (g : Byte × List Byte) => L.printed (pspMinCap partsp) (stem ++ g.2))).length
            = x.length + P.length + 1 + (zeroed ((fs.takeWhile (·.1 = id)).map fun f => L.printed (pspMinCap partsp) (stem ++ f.2))).length := by
          rw [List.map_cons, zeroed_cons, hP]; simp; omega
        by_cases hb : x.length + P.length + 2 ≤ B.length
        · obtain ⟨c', h1, h2⟩ := hap.1 hb
          rw [h1]
          simp only [Option.bind_some, if_true, List.drop_left]
          have ih' := ih (fun f hf => h f (by simp [hf])) mem (x ++ (P ++ [0])) c' (nb + 1) h2
            (fun g hg hle => hmem _ (hj g (by simp [hg]) hle))
          have heq : x ++ (P ++ [0]) ++ zeroed ((List.takeWhile (fun (g : Byte × List Byte) => decide (g.1 = id)) fs).map fun (g : Byte × List Byte) => L.printed (pspMinCap partsp) (stem ++ g.2)) =
              x ++ zeroed ((f :: List.takeWhile (fun (g : Byte × List Byte) => decide (g.1 = id)) fs).map fun (g : Byte × List Byte) => L.printed (pspMinCap partsp) (stem ++ g.2)) := by
            rw [List.map_cons, zeroed_cons, hP]; simp
          rw [heq] at ih'
          have hcast : ((nb + 1 : Nat) : Int) = (nb : Int) + 1 := by omega
          rw [hcast] at ih'
          constructor
          · rintro ⟨k1, k2⟩
            obtain ⟨c2, m1, m2⟩ := ih'.1 ⟨fun g hg => k1 g (by simp [hg]), fun _ => k2 (by simp)⟩
            refine ⟨c2, ?_, m2⟩
            rw [m1]
            congr 2
            simp; omega
          · intro hn
            apply ih'.2
            rintro ⟨k1, k2⟩
            apply hn
            refine ⟨?_, ?_⟩
            · intro g hg
              rcases List.mem_cons.1 hg with rfl | hg
              · omega
              · exact k1 g hg
            · intro _
              by_cases ht : fs.takeWhile (·.1 = id) = []
              · rw [hlen, ht]; simp [zeroed]; omega
              · exact k2 ht
        · obtain ⟨c', h1, -⟩ := hap.2 (by omega)
          rw [h1]
          simp only [Option.bind_some, Bool.false_eq_true, if_false]
          constructor
          · rintro ⟨-, k2⟩
            have := k2 (by simp)
            omega
          · intro _; exact ⟨_, _, rfl, by simp⟩
    · have htw : (f :: fs).takeWhile (·.1 = id) = [] := by
        rw [List.takeWhile_cons_of_neg (by simpa using hid)]
      rw [if_pos (by simpa using hid), htw]
      constructor
      · intro _; exact ⟨c, rfl, by simpa [zeroed] using hc⟩
      · intro hn; exact absurd ⟨by simp, by simp⟩ hn

/-- In a class whose form numbers go up the loop finds all the endings of a form number. -/
theorem takeWhile_dropWhile_filter (fs : List (Byte × List Byte)) (id : Nat) (h : (fs.map (·.1)).Pairwise (· ≤ ·)) :
    (fs.dropWhile (·.1 < id)).takeWhile (·.1 = id) = fs.filter (·.1 = id) := by
  induction fs with
  | nil => rfl
  | cons f fs ih =>
    rw [List.map_cons, List.pairwise_cons] at h
    by_cases h1 : f.1 < id
    · rw [List.dropWhile_cons_of_pos (by simpa using h1), List.filter_cons_of_neg (by simp; omega), ih h.2]
    · rw [List.dropWhile_cons_of_neg (by simpa using h1)]
      have hbig : ∀ (gs : List (Byte × List Byte)), (gs.map (·.1)).Pairwise (· ≤ ·) → (∀ g ∈ gs, id ≤ g.1) →
          gs.takeWhile (·.1 = id) = gs.filter (·.1 = id) := by
        intro gs
        induction gs with
        | nil => intro _ _; rfl
        | cons g gs ihg =>
          intro hg hge
          rw [List.map_cons, List.pairwise_cons] at hg
          by_cases e : g.1 = id
          · rw [List.takeWhile_cons_of_pos (by simpa using e), List.filter_cons_of_pos (by simpa using e),
              ihg hg.2 fun g hg => hge g (by simp [hg])]
          · rw [List.takeWhile_cons_of_neg (by simpa using e), List.filter_cons_of_neg (by simpa using e)]
            symm
            rw [List.filter_eq_nil_iff]
            intro z hz
            have h1 := hg.1 z.1 (List.mem_map_of_mem hz)
            have h2 := hge g (by simp)
            simp; omega
      apply hbig
      · rw [List.map_cons, List.pairwise_cons]; exact h
      · intro g hg
        rcases List.mem_cons.1 hg with rfl | hg
        · omega
        · have := h.1 g.1 (List.mem_map_of_mem hg); omega

theorem sortModels_perm (ms : List FuzzyModel) : (sortModels ms).Perm ms := List.perm_insertionSort _ _

/-- BuildForm of the fuzzy analysers, with what is in the buffer behind the forms. -/
theorem fuzzyBuildForm_exact (hL : L = rusFuzzy ∨ L = engFuzzy) (hok : FuzzyOk R L cs) (t : PTree) (hw : Text w) (hne : w ≠ [])
    (hlen : w.length < 256) (hparts : (wordParts L.tab w).length ≤ 8) (junk B : List Byte) (hB : B ≠ []) (i : Nat) (c : FuzzyClass)
    (hc : cs[i]? = some c) (hs : (c.flexes.map (·.1)).Pairwise (· ≤ ·)) (form : Nat) (fs : List (List Byte))
    (hfs : fs = fuzzyForms L c (w.map L.tab.lower) form)
    (hj : ∀ e ∈ c.endings form, w.length + e.length ≤ 64 → FuzzyStops L junk (w.length + e.length)) :
    (((∀ e ∈ c.endings form, w.length + e.length ≤ 64) ∧ (fs ≠ [] → (zeroed fs).length < B.length)) →
      ∃ tail, fuzzyBuildForm L (fuzzyImages cs t) junk (some B) w i form = some ((fs.length : Int), some (zeroed fs ++ tail)) ∧
        (zeroed fs ++ tail).length = B.length ∧ (fs = [] → tail = B) ∧ (fs ≠ [] → tail = 0 :: B.drop ((zeroed fs).length + 1))) ∧
    (¬ ((∀ e ∈ c.endings form, w.length + e.length ≤ 64) ∧ (fs ≠ [] → (zeroed fs).length < B.length)) →
      ∃ e out, fuzzyBuildForm L (fuzzyImages cs t) junk (some B) w i form = some (e, out) ∧
        e ∈ [LEMMBUFF_FAILED, WORDBUFF_FAILED]) := by
  have hT := fuzzyTab_ok hL
  have hm : c ∈ cs := List.mem_of_getElem? hc
  obtain ⟨hi, -⟩ := List.getElem?_eq_some_iff.1 hc
  obtain ⟨s, h1, h2, h3, -, -⟩ := capGet_summary L.tab hT 256 w hne hlen (by decide) hparts
  have hcan : fuzzyCanonic L w = some (some (w.map L.tab.lower, s)) := by
    rw [fuzzyCanonic, if_neg (by simpa using hne), h1]
  obtain ⟨tl, hcr, -⟩ := (fuzzyClass_eq cs t i hok.flexes).1 c hc
  have hshort : ∀ f ∈ c.flexes, f.2.length < 256 := fun f hf => by have := hok.short c hm f hf; omega
  have hskip := skipForms_ser form c.flexes hshort ((putserial c.models.length
    ++ ((sortModels c.models).map FuzzyModel.ser).flatten) ++ tl)
  have hrest : c.rest ++ tl = flexesSer c.flexes ++ ((putserial c.models.length
    ++ ((sortModels c.models).map FuzzyModel.ser).flatten) ++ tl) := by
    rw [FuzzyClass.rest, flexesSer, List.append_assoc]
  have hlo : (w.map L.tab.lower).take (s >>> 16) = w.map L.tab.lower := by
    rw [h3]; exact List.take_of_length_le (by simp)
  have hoff : (fuzzyImages cs t).offsets.length = cs.length := by
    rw [fuzzyImages]; simp only; rw [fuzzyOffsets_length, List.length_map]
  have hrun : fuzzyBuildForm L (fuzzyImages cs t) junk (some B) w i form = (do
      let (r, c) ← fuzzyFormLoop L (w.map L.tab.lower) c.partSp form (c.flexes.dropWhile (·.1 < form)).length
        (flexesSer (c.flexes.dropWhile (·.1 < form)) ++ ((putserial c.models.length
          ++ ((sortModels c.models).map FuzzyModel.ser).flatten) ++ tl)) junk ⟨some B, 0⟩ ((0 : Nat) : Int)
      return (r, c.buf)) := by
    rw [fuzzyBuildForm, hcan]
    simp only [Option.bind_eq_bind, Option.bind_some]
    rw [if_neg (by rw [hoff]; simp [hB]; omega), if_neg h2, hcr]
    simp only [Option.bind_some]
    rw [hrest, hskip]
    simp only [Option.bind_some, hlo]
    rfl
  have hend : (c.flexes.dropWhile (·.1 < form)).takeWhile (·.1 = form) = c.flexes.filter (·.1 = form) :=
    takeWhile_dropWhile_filter _ _ hs
  have hl := fuzzyFormLoop_eq hL (w.map L.tab.lower) (fuzzyLower_text hL hw) c.partSp (hok.partSp c hm) form
    ((putserial c.models.length ++ ((sortModels c.models).map FuzzyModel.ser).flatten) ++ tl) B
    (c.flexes.dropWhile (·.1 < form)) (fun f hf => by
      have hf' := (List.dropWhile_sublist _).subset hf
      exact ⟨hshort f hf', hok.text c hm f hf'⟩) junk [] ⟨some B, 0⟩ 0
    ⟨rfl, by simp, Or.inl ⟨rfl, rfl⟩⟩ (by
      intro f hf hle
      rw [hend] at hf
      rw [List.length_map] at hle ⊢
      exact hj f.2 (List.mem_map_of_mem hf) hle)
  rw [hend] at hl
  have hmap : ((c.flexes.filter (·.1 = form)).map fun f => L.printed (pspMinCap c.partSp) (w.map L.tab.lower ++ f.2)) = fs := by
    rw [hfs, fuzzyForms, FuzzyClass.endings, List.map_map]; rfl
  rw [hmap, List.nil_append] at hl
  have hcount : (c.flexes.filter (·.1 = form)).length = fs.length := by rw [← hmap, List.length_map]
  have hcond : ((∀ f ∈ c.flexes.filter (·.1 = form), (w.map L.tab.lower).length + f.2.length ≤ 64) ∧
      (c.flexes.filter (·.1 = form) ≠ [] → (zeroed fs).length < B.length)) ↔
      ((∀ e ∈ c.endings form, w.length + e.length ≤ 64) ∧ (fs ≠ [] → (zeroed fs).length < B.length)) := by
    have e1 : c.flexes.filter (·.1 = form) ≠ [] ↔ fs ≠ [] := by
      rw [ne_eq, ne_eq, ← List.length_eq_zero_iff, ← List.length_eq_zero_iff, hcount]
    rw [e1]
    simp only [FuzzyClass.endings, List.length_map, List.forall_mem_map]
  rw [hcond, hcount] at hl
  rw [hrun]
  constructor
  · intro h
    obtain ⟨c', k1, k2⟩ := hl.1 h
    rw [k1]
    have hz : zeroed fs = [] ↔ fs = [] := by
      refine ⟨fun h0 => ?_, fun h0 => by rw [h0]; rfl⟩
      cases hfs' : fs with
      | nil => rfl
      | cons f l => rw [hfs', zeroed_cons] at h0; simp at h0
    rcases k2.buf with ⟨z1, z2⟩ | ⟨z1, z2, z3⟩
    · refine ⟨B, ?_, ?_, fun _ => rfl, fun h0 => absurd (hz.1 z1) h0⟩
      · simp only [Option.bind_eq_bind, Option.bind_some, z2, z1, Nat.zero_add]; rfl
      · rw [z1]; rfl
    · refine ⟨0 :: B.drop ((zeroed fs).length + 1), ?_, ?_, fun h0 => absurd (hz.2 h0) z1, fun _ => rfl⟩
      · simp only [Option.bind_eq_bind, Option.bind_some, z3, Nat.zero_add]; rfl
      · simp only [List.length_append, List.length_cons, List.length_drop]; omega
  · intro h
    obtain ⟨e, c', k1, k2⟩ := hl.2 h
    rw [k1]
    exact ⟨e, c'.buf, rfl, k2⟩

/-- BuildForm of the fuzzy analysers. -/
theorem fuzzyBuildForm_eq (hL : L = rusFuzzy ∨ L = engFuzzy) (hok : FuzzyOk R L cs) (t : PTree) (hw : Text w) (hne : w ≠ [])
    (hlen : w.length < 256) (hparts : (wordParts L.tab w).length ≤ 8) (junk B : List Byte) (hB : B ≠ []) (i : Nat) (c : FuzzyClass)
    (hc : cs[i]? = some c) (hs : (c.flexes.map (·.1)).Pairwise (· ≤ ·)) (form : Nat) (fs : List (List Byte))
    (hfs : fs = fuzzyForms L c (w.map L.tab.lower) form)
    (hj : ∀ e ∈ c.endings form, w.length + e.length ≤ 64 → FuzzyStops L junk (w.length + e.length)) :
    (((∀ e ∈ c.endings form, w.length + e.length ≤ 64) ∧ (fs ≠ [] → (zeroed fs).length < B.length)) →
      ∃ tail, fuzzyBuildForm L (fuzzyImages cs t) junk (some B) w i form = some ((fs.length : Int), some (zeroed fs ++ tail)) ∧
        (zeroed fs ++ tail).length = B.length) ∧
    (¬ ((∀ e ∈ c.endings form, w.length + e.length ≤ 64) ∧ (fs ≠ [] → (zeroed fs).length < B.length)) →
      ∃ e out, fuzzyBuildForm L (fuzzyImages cs t) junk (some B) w i form = some (e, out) ∧
        e ∈ [LEMMBUFF_FAILED, WORDBUFF_FAILED]) := by
  obtain ⟨a, b⟩ := fuzzyBuildForm_exact hL hok t hw hne hlen hparts junk B hB i c hc hs form fs hfs hj
  exact ⟨fun h => by obtain ⟨tail, k1, k2, -⟩ := a h; exact ⟨tail, k1, k2⟩, b⟩

/-! ### Models -/

theorem modelsLoop_eq (ms : List FuzzyModel) (h : ∀ m ∈ ms, m.weight < 2 ^ 32 ∧ m.sample.length < 2 ^ 32) (tl : List Byte) :
    ∀ (x y : List Byte) (n : Nat), n ≤ x.length →
    ∃ y', modelsLoop ms.length ((ms.map FuzzyModel.ser).flatten ++ tl) (x ++ y) x.length n =
      some (if n = 0 ∧ fittingTexts y.length (ms.map (·.sample)) = [] ∧ ms ≠ [] then LEMMBUFF_FAILED
        else ((n + (fittingTexts y.length (ms.map (·.sample))).length : Nat) : Int),
        x ++ zeroed (fittingTexts y.length (ms.map (·.sample))) ++ y') ∧
      (zeroed (fittingTexts y.length (ms.map (·.sample))) ++ y').length = y.length := by
  induction ms with
  | nil => intro x y n _; exact ⟨y, by simp [modelsLoop, fittingTexts, zeroed], by simp [fittingTexts, zeroed]⟩
  | cons m ms ih =>
    intro x y n hn
    obtain ⟨h1, h2⟩ := h m (by simp)
    rw [List.length_cons, modelsLoop, List.map_cons, List.flatten_cons, FuzzyModel.ser]
    simp only [List.append_assoc, List.cons_append, List.nil_append, getbyte, Option.bind_eq_bind, Option.bind_some]
    rw [getserial_putserial h1]
    simp only [Option.bind_some]
    rw [getserial_putserial h2]
    simp only [Option.bind_some]
    rw [if_neg (by simp)]
    have hsub : (x ++ y).length - x.length = y.length := by simp
    rw [hsub]
    by_cases hge : m.sample.length ≥ y.length
    · have hf : fittingTexts y.length ((m :: ms).map (·.sample)) = [] := by rw [List.map_cons, fittingTexts, if_neg (by omega)]
      rw [if_pos hge]
      refine ⟨y, ?_, by rw [hf]; simp [zeroed]⟩
      rw [hf]
      by_cases h0 : n = 0
      · subst h0; simp [zeroed]
      · simp [h0, zeroed]
    · rw [if_neg hge, List.take_left, List.drop_left]
      have hp : pokes (x ++ y) x.length (m.sample ++ [0]) = some (x ++ (m.sample ++ [0]) ++ y.drop (m.sample.length + 1)) := by
        rw [pokes, if_pos (by simp; omega), List.take_left, List.drop_append]
        congr 2
        rw [List.drop_of_length_le (by simp), List.nil_append]
        congr 1
        simp
      rw [hp]
      simp only [Option.bind_some]
      have ih' := ih (fun m hm => h m (by simp [hm])) (x ++ (m.sample ++ [0])) (y.drop (m.sample.length + 1)) (n + 1) (by simp; omega)
      have hl1 : (x ++ (m.sample ++ [0])).length = x.length + m.sample.length + 1 := by simp; omega
      have hl2 : (y.drop (m.sample.length + 1)).length = y.length - m.sample.length - 1 := by simp; omega
      rw [hl1, hl2] at ih'
      obtain ⟨y', k1, k2⟩ := ih'
      have hf : fittingTexts y.length ((m :: ms).map (·.sample)) = m.sample :: fittingTexts (y.length - m.sample.length - 1) (ms.map (·.sample)) := by
        rw [List.map_cons, fittingTexts, if_pos (by omega)]
      refine ⟨y', ?_, ?_⟩
      · rw [hf]
        rw [if_neg (by simp)] at k1
        rw [if_neg (by simp)]
        have : ((n : Int) + 1) = ((n + 1 : Nat) : Int) := by omega
        rw [this, k1, zeroed_cons]
        simp only [List.append_assoc, List.cons_append, List.nil_append, List.length_cons]
        congr 2
        omega
      · rw [hf, zeroed_cons]
        simp only [List.length_append, List.length_cons] at k2 ⊢
        omega

/-- GetModels of the fuzzy analysers. -/
theorem fuzzyGetModels_eq (hok : FuzzyOk R L cs) (t : PTree) (B : List Byte) (hB : B ≠ []) (i : Nat) (c : FuzzyClass)
    (hc : cs[i]? = some c) (hn : c.models.length < 2 ^ 32) (hm : ∀ m ∈ c.models, m.weight < 2 ^ 32 ∧ m.sample.length < 2 ^ 32)
    (xs : List (List Byte)) (hxs : xs = fittingTexts B.length ((sortModels c.models).map (·.sample))) :
    ∃ tail, fuzzyGetModels (fuzzyImages cs t) (some B) i =
      some (if xs = [] ∧ c.models ≠ [] then LEMMBUFF_FAILED else (xs.length : Int), some (zeroed xs ++ tail)) ∧
      (zeroed xs ++ tail).length = B.length := by
  have hmem : c ∈ cs := List.mem_of_getElem? hc
  obtain ⟨tl, hcr, -⟩ := (fuzzyClass_eq cs t i hok.flexes).1 c hc
  have hshort : ∀ f ∈ c.flexes, f.2.length < 256 := fun f hf => by have := hok.short c hmem f hf; omega
  have hrest : c.rest ++ tl = flexesSer c.flexes ++ (putserial c.models.length
    ++ (((sortModels c.models).map FuzzyModel.ser).flatten ++ tl)) := by
    rw [FuzzyClass.rest, flexesSer]; simp only [List.append_assoc]
  have hperm := sortModels_perm c.models
  obtain ⟨y, h1, h2⟩ := modelsLoop_eq (sortModels c.models) (fun m hm' => hm m (hperm.mem_iff.1 hm')) tl [] B 0 (by simp)
  rw [← hxs] at h1 h2
  refine ⟨y, ?_, h2⟩
  rw [fuzzyGetModels]
  simp only [Option.bind_eq_bind]
  rw [if_neg (by simpa using hB), hcr]
  simp only [Option.bind_some]
  rw [hrest, skipFlexes_ser _ hshort]
  simp only [Option.bind_some]
  rw [getserial_putserial hn]
  simp only [Option.bind_some]
  rw [List.nil_append, List.length_nil, hperm.length_eq] at h1
  have h1' : modelsLoop c.models.length (((sortModels c.models).map FuzzyModel.ser).flatten ++ tl) B 0 0 = _ := h1
  rw [h1']
  have hne : (sortModels c.models) ≠ [] ↔ c.models ≠ [] := by
    rw [ne_eq, ne_eq, ← List.length_eq_zero_iff, ← List.length_eq_zero_iff, hperm.length_eq]
  simp only [Option.bind_some, hne, true_and, Nat.zero_add, List.nil_append]
  rfl

end Libmorph
