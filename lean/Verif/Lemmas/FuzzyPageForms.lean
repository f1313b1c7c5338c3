import Verif.Lemmas.FuzzyPage
import Verif.Lemmas.FuzzyForms
/-
BuildForm and GetModels of the fuzzy analysers in two code pages.
-/
namespace Libmorph

variable {P : Page} {enc : Byte → List Byte} {known : Byte → Prop} {σ : Type}

/-- The forms of a class, with any collector. -/
def fuzzyTextLoop (L : FuzzyLang) (stem : List Byte) (partsp idform : Nat) (put : List Byte → σ → Option (Option Int × σ)) :
    Nat → List Byte → List Byte → σ → Option (Option Int × σ)
  | 0, _, _, s => some (none, s)
  | n + 1, p, junk, s =>
    match getbyte p with
    | none => none
    | some (id, p) =>
      if id ≠ idform then some (none, s)
      else
        match getbyte p with
        | none => none
        | some (cc, p) =>
          if stem.length + cc > 0x40 then some (some WORDBUFF_FAILED, s)
          else
            match strncpyOf p cc with
            | none => none
            | some flex =>
              match fuzzyForm L junk stem flex partsp with
              | none => none
              | some (form, junk) =>
                match put form s with
                | none => none
                | some (some r, s') => some (some r, s')
                | some (none, s') => fuzzyTextLoop L stem partsp idform put n (p.drop cc) junk s'

theorem fuzzyTextLoop_ended (L : FuzzyLang) (stem : List Byte) (partsp idform n : Nat) (p junk : List Byte) :
    Ended (fun _ f s => fuzzyTextLoop L stem partsp idform f n p junk s) := by
  induction n generalizing p junk with
  | zero => exact Ended.ret none (by simp)
  | succ n ih =>
    simp only [fuzzyTextLoop]
    rcases getbyte p with _ | ⟨id, p⟩
    · exact Ended.undefined
    · simp only
      split
      · exact Ended.ret none (by simp)
      · rcases getbyte p with _ | ⟨cc, p⟩
        · exact Ended.undefined
        · simp only
          split
          · exact Ended.ret _ (by intro x hx; cases hx; decide)
          · rcases strncpyOf p cc with _ | flex
            · exact Ended.undefined
            · simp only
              rcases fuzzyForm L junk stem flex partsp with _ | ⟨form, j⟩
              · exact Ended.undefined
              · simp only
                exact Ended.of_eq (fun _ f s => by rcases f form s with _ | ⟨_ | r, s'⟩ <;> rfl) ((Ended.call form).seq (ih (p.drop cc) j))

theorem fuzzyFormLoop_texts (L : FuzzyLang) (stem : List Byte) (partsp idform n : Nat) (p junk : List Byte) (c : Coder) (nb : Int) :
    ((fuzzyFormLoop L stem partsp idform n p junk c nb).map fun r => (r.1, r.2.buf)) =
      formAnswer (fuzzyTextLoop L stem partsp idform putText n p junk ⟨c, nb⟩) := by
  have hw : (WORDBUFF_FAILED : Int) < 0 := by decide
  have hl : (LEMMBUFF_FAILED : Int) < 0 := by decide
  induction n generalizing p junk c nb with
  | zero => rfl
  | succ n ih =>
    simp only [fuzzyTextLoop, fuzzyFormLoop, bind]
    rcases getbyte p with _ | ⟨id, p⟩
    · rfl
    · simp only [Option.bind_some]
      split
      · rfl
      · rcases getbyte p with _ | ⟨cc, p⟩
        · rfl
        · simp only [Option.bind_some]
          split
          · simp [formAnswer, formResult, hw]
          · rcases strncpyOf p cc with _ | flex
            · rfl
            · simp only [Option.bind_some]
              rcases fuzzyForm L junk stem flex partsp with _ | ⟨form, j⟩
              · rfl
              · simp only [Option.bind_some, putText, bind]
                rcases c.appendz form with _ | ⟨_ | _, c'⟩
                · rfl
                · simp [formAnswer, formResult, hl]
                · exact ih _ _ _ _

theorem fuzzyFormLoopIn_texts (L : FuzzyLang) (stem : List Byte) (partsp idform n : Nat) (p junk : List Byte) (c : Coder) (nb : Int) :
    ((fuzzyFormLoopIn P L stem partsp idform n p junk c nb).map fun r => (r.1, r.2.buf)) =
      formAnswer (fuzzyTextLoop L stem partsp idform (putTextIn P) n p junk ⟨c, nb⟩) := by
  have hw : (WORDBUFF_FAILED : Int) < 0 := by decide
  have hl : (LEMMBUFF_FAILED : Int) < 0 := by decide
  induction n generalizing p junk c nb with
  | zero => rfl
  | succ n ih =>
    simp only [fuzzyTextLoop, fuzzyFormLoopIn, bind]
    rcases getbyte p with _ | ⟨id, p⟩
    · rfl
    · simp only [Option.bind_some]
      split
      · rfl
      · rcases getbyte p with _ | ⟨cc, p⟩
        · rfl
        · simp only [Option.bind_some]
          split
          · simp [formAnswer, formResult, hw]
          · rcases strncpyOf p cc with _ | flex
            · rfl
            · simp only [Option.bind_some]
              rcases fuzzyForm L junk stem flex partsp with _ | ⟨form, j⟩
              · rfl
              · simp only [Option.bind_some, putTextIn, bind]
                rcases c.appendzIn P form with _ | ⟨_ | _, c'⟩
                · rfl
                · simp [formAnswer, formResult, hl]
                · exact ih _ _ _ _

/-! ### Models -/

/-- A conversion that wants room for the zero behind the text. -/
def Page.Strict (P : Page) (enc : Byte → List Byte) : Prop := ∀ n p, (P.from1251 n p).isSome → (inPage enc p).length < n

theorem modelsLoopIn_eq (hP : P.Ok enc known) (hS : P.Strict enc) (ms : List FuzzyModel) (h : ∀ m ∈ ms, m.weight < 2 ^ 32 ∧ m.sample.length < 2 ^ 32)
    (tl : List Byte) :
    ∀ (x y : List Byte) (n : Nat), n ≤ x.length →
    ∃ y', modelsLoopIn P ms.length ((ms.map FuzzyModel.ser).flatten ++ tl) (x ++ y) x.length n =
      some (if n = 0 ∧ fittingTexts y.length (ms.map fun m => inPage enc m.sample) = [] ∧ ms ≠ [] then LEMMBUFF_FAILED
        else ((n + (fittingTexts y.length (ms.map fun m => inPage enc m.sample)).length : Nat) : Int),
        x ++ zeroed (fittingTexts y.length (ms.map fun m => inPage enc m.sample)) ++ y') ∧
      (zeroed (fittingTexts y.length (ms.map fun m => inPage enc m.sample)) ++ y').length = y.length := by
  induction ms with
  | nil => intro x y n _; exact ⟨y, by simp [modelsLoopIn, fittingTexts, zeroed], by simp [fittingTexts, zeroed]⟩
  | cons m ms ih =>
    intro x y n hn
    obtain ⟨h1, h2⟩ := h m (by simp)
    rw [List.length_cons, modelsLoopIn, List.map_cons, List.flatten_cons, FuzzyModel.ser]
    simp only [List.append_assoc, List.cons_append, List.nil_append, getbyte, Option.bind_eq_bind, Option.bind_some]
    rw [getserial_putserial h1]
    simp only [Option.bind_some]
    rw [getserial_putserial h2]
    simp only [Option.bind_some]
    rw [if_neg (by simp), if_neg (by simp)]
    have hsub : (x ++ y).length - x.length = y.length := by simp
    rw [hsub, List.take_left]
    by_cases hge : (inPage enc m.sample).length ≥ y.length
    · have hf : fittingTexts y.length ((m :: ms).map fun m => inPage enc m.sample) = [] := by rw [List.map_cons, fittingTexts, if_neg (by omega)]
      have hnone : P.from1251 y.length m.sample = none := by
        cases hc : P.from1251 y.length m.sample with
        | none => rfl
        | some r => have := hS y.length m.sample (by rw [hc]; rfl); omega
      rw [hnone]
      refine ⟨y, ?_, by rw [hf]; simp [zeroed]⟩
      rw [hf]
      by_cases h0 : n = 0
      · subst h0; simp [zeroed]
      · simp [h0, zeroed]
    · rw [hP.from_room _ _ (by omega), List.drop_left]
      have hp : pokes (x ++ y) x.length (inPage enc m.sample ++ [0]) = some (x ++ (inPage enc m.sample ++ [0]) ++ y.drop ((inPage enc m.sample).length + 1)) := by
        rw [pokes, if_pos (by simp; omega), List.take_left, List.drop_append]
        congr 2
        rw [List.drop_of_length_le (by simp), List.nil_append]
        congr 1
        simp
      simp only [hp, Option.bind_some]
      have ih' := ih (fun m hm => h m (by simp [hm])) (x ++ (inPage enc m.sample ++ [0])) (y.drop ((inPage enc m.sample).length + 1)) (n + 1) (by simp; omega)
      have hl1 : (x ++ (inPage enc m.sample ++ [0])).length = x.length + (inPage enc m.sample).length + 1 := by simp; omega
      have hl2 : (y.drop ((inPage enc m.sample).length + 1)).length = y.length - (inPage enc m.sample).length - 1 := by simp; omega
      rw [hl1, hl2] at ih'
      obtain ⟨y', k1, k2⟩ := ih'
      have hf : fittingTexts y.length ((m :: ms).map fun m => inPage enc m.sample) =
          inPage enc m.sample :: fittingTexts (y.length - (inPage enc m.sample).length - 1) (ms.map fun m => inPage enc m.sample) := by
        rw [List.map_cons, fittingTexts, if_pos (by omega)]
      refine ⟨y', ?_, ?_⟩
      · rw [hf]
        rw [if_neg (by simp)] at k1
        rw [if_neg (by simp)]
        have : ((n : Int) + 1) = ((n + 1 : Nat) : Int) := by omega
        rw [this, k1, zeroed_cons]
        simp only [List.append_assoc, List.cons_append, List.nil_append, List.length_cons]
        congr 2
        omega
      · rw [hf, zeroed_cons]
        simp only [List.length_append, List.length_cons] at k2 ⊢
        omega

theorem fuzzyGetModelsIn_eq {ω : Type} {R : FuzzyRank ω} {L : FuzzyLang} {cs : List FuzzyClass} (hP : P.Ok enc known) (hS : P.Strict enc)
    (hok : FuzzyOk R L cs) (t : PTree) (B : List Byte) (hB : B ≠ []) (i : Nat) (c : FuzzyClass)
    (hc : cs[i]? = some c) (hn : c.models.length < 2 ^ 32) (hm : ∀ m ∈ c.models, m.weight < 2 ^ 32 ∧ m.sample.length < 2 ^ 32)
    (xs : List (List Byte)) (hxs : xs = fittingTexts B.length ((sortModels c.models).map fun m => inPage enc m.sample)) :
    ∃ tail, fuzzyGetModelsIn P (fuzzyImages cs t) (some B) i =
      some (if xs = [] ∧ c.models ≠ [] then LEMMBUFF_FAILED else (xs.length : Int), some (zeroed xs ++ tail)) ∧
      (zeroed xs ++ tail).length = B.length := by
  have hmem : c ∈ cs := List.mem_of_getElem? hc
  obtain ⟨tl, hcr, -⟩ := (fuzzyClass_eq cs t i hok.flexes).1 c hc
  have hshort : ∀ f ∈ c.flexes, f.2.length < 256 := fun f hf => by have := hok.short c hmem f hf; omega
  have hrest : c.rest ++ tl = flexesSer c.flexes ++ (putserial c.models.length
    ++ (((sortModels c.models).map FuzzyModel.ser).flatten ++ tl)) := by
    rw [FuzzyClass.rest, flexesSer]; simp only [List.append_assoc]
  have hperm := sortModels_perm c.models
  obtain ⟨y, h1, h2⟩ := modelsLoopIn_eq hP hS (sortModels c.models) (fun m hm' => hm m (hperm.mem_iff.1 hm')) tl [] B 0 (by simp)
  rw [← hxs] at h1 h2
  refine ⟨y, ?_, h2⟩
  rw [fuzzyGetModelsIn]
  simp only [Option.bind_eq_bind]
  rw [if_neg (by simpa using hB), hcr]
  simp only [Option.bind_some]
  rw [hrest, skipFlexes_ser _ hshort]
  simp only [Option.bind_some]
  rw [getserial_putserial hn]
  simp only [Option.bind_some]
  rw [List.nil_append, List.length_nil, hperm.length_eq] at h1
  have h1' : modelsLoopIn P c.models.length (((sortModels c.models).map FuzzyModel.ser).flatten ++ tl) B 0 0 = _ := h1
  rw [h1']
  have hne : (sortModels c.models) ≠ [] ↔ c.models ≠ [] := by
    rw [ne_eq, ne_eq, ← List.length_eq_zero_iff, ← List.length_eq_zero_iff, hperm.length_eq]
  simp only [Option.bind_some, hne, true_and, Nat.zero_add, List.nil_append]
  rfl

end Libmorph
