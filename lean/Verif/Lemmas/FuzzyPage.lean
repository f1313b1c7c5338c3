import Verif.Lemmas.PageLemm
import Verif.Spec.FuzzyPage
import Mathlib.Data.List.Forall2
/-
The guesses for a word, whatever buffer and code page the lemmas go to.
-/
namespace Libmorph

variable {P : Page} {enc : Byte → List Byte} {known : Byte → Prop} {ω : Type}

/-! ### The scan is a sequence of calls -/

abbrev FuzzyVisit := Nat × FuzzyRef

theorem patListLoop_ended (clemma n : Nat) (p : List Byte) :
    Ended (fun σ (f : FuzzyVisit → σ → Option (Option Int × σ)) s => patListLoop (fun c r => f (c, r)) clemma n p s) := by
  induction n generalizing p with
  | zero => exact Ended.ret none (by simp)
  | succ n ih =>
    simp only [patListLoop]
    cases h1 : getserial p with
    | none => exact Ended.undefined
    | some x =>
      simp only [bind, Option.bind_some]
      cases h2 : getserial x.2 with
      | none => exact Ended.undefined
      | some y =>
        simp only [Option.bind_some]
        cases h3 : getbyte y.2 with
        | none => exact Ended.undefined
        | some z =>
          simp only [Option.bind_some]
          refine Ended.of_eq (fun σ f s => ?_) ((Ended.call (clemma, (⟨x.1, y.1, z.1⟩ : FuzzyRef))).seq (ih z.2))
          rcases f (clemma, ⟨x.1, y.1, z.1⟩) s with _ | ⟨_ | r, s'⟩ <;> rfl

theorem patLoop_ended (fuel nchars nnodes : Nat) (p rev : List Byte) (cchkey : Nat) :
    Ended (fun σ (f : FuzzyVisit → σ → Option (Option Int × σ)) s => patLoop (fun c r => f (c, r)) fuel nchars nnodes p rev cchkey s) := by
  induction fuel generalizing nchars nnodes p rev cchkey with
  | zero => exact Ended.undefined
  | succ fuel ih =>
    simp only [patLoop]
    split
    · exact Ended.ret none (by simp)
    · split
      · exact Ended.ret none (by simp)
      · rcases h1 : patMatch nchars p rev with _ | _ | ⟨p', rev'⟩
        · exact Ended.undefined
        · exact Ended.ret none (by simp)
        · simp only [bind, Option.bind_some]
          cases h2 : getserial p' with
          | none => exact Ended.undefined
          | some x =>
            simp only [Option.bind_some]
            have tail : Ended (fun σ (f : FuzzyVisit → σ → Option (Option Int × σ)) s =>
                (patKids rev' (nnodes / 2) x.2).bind fun k => match k with
                  | none => some (none, s)
                  | some (cchars, cnodes, p) => patLoop (fun c r => f (c, r)) fuel cchars cnodes p rev' (cchkey - nchars) s) := by
              rcases patKids rev' (nnodes / 2) x.2 with _ | _ | ⟨a, b, c⟩
              · exact Ended.undefined
              · exact Ended.ret none (by simp)
              · exact ih _ _ _ _ _
            have head : Ended (fun σ (f : FuzzyVisit → σ → Option (Option Int × σ)) s =>
                (if nnodes % 2 = 1 then (patJump (nnodes / 2) x.2).bind fun v => patList (fun c r => f (c, r)) (cchkey - nchars) v s
                  else some (none, s) : Option (Option Int × σ))) := by
              split
              · cases patJump (nnodes / 2) x.2 with
                | none => exact Ended.undefined
                | some v =>
                  simp only [Option.bind_some, patList]
                  cases getserial v with
                  | none => exact Ended.undefined
                  | some z => exact patListLoop_ended _ _ _
              · exact Ended.ret none (by simp)
            refine Ended.of_eq (fun σ f s => ?_) (head.seq tail)
            rcases (if nnodes % 2 = 1 then (patJump (nnodes / 2) x.2).bind fun v => patList (fun c r => f (c, r)) (cchkey - nchars) v s
                  else some (none, s) : Option (Option Int × σ)) with _ | ⟨_ | r, s'⟩
            · rfl
            · simp only [Option.bind_some]
              rcases patKids rev' (nnodes / 2) x.2 with _ | _ | ⟨a, b, c⟩ <;> rfl
            · rfl

theorem patScan_ended (patree rev : List Byte) (cchkey : Nat) :
    Ended (fun σ (f : FuzzyVisit → σ → Option (Option Int × σ)) s => patScan (fun c r => f (c, r)) patree rev cchkey s) := by
  simp only [patScan]
  cases h1 : getserial patree with
  | none => exact Ended.undefined
  | some x =>
    simp only [bind, Option.bind_some]
    cases h2 : getserial x.2 with
    | none => exact Ended.undefined
    | some y => exact patLoop_ended _ _ _ _ _ _

/-! ### Capitals -/

/-- The same text in other capitals. -/
abbrev Cased (T : CharTab) (x y : List Byte) : Prop := List.Forall₂ (fun a b => a = b ∨ a = T.upper b) x y

theorem Cased.refl (T : CharTab) (x : List Byte) : Cased T x x := by
  induction x with
  | nil => exact .nil
  | cons a x ih => exact .cons (.inl rfl) ih

theorem setPart_cased (T : CharTab) (cap : Nat) (mem : List Byte) {done rest : List Byte} (h : setPart T cap mem = some (done, rest)) :
    ∃ p, mem = p ++ rest ∧ Cased T done p := by
  induction mem generalizing cap done with
  | nil => cases h
  | cons c mem ih =>
    simp only [setPart] at h
    split at h
    · cases h; exact ⟨[], rfl, .nil⟩
    · simp only [bind, pure, Option.bind_eq_some_iff] at h
      obtain ⟨⟨d, r⟩, h1, h2⟩ := h
      simp only [Option.some.injEq, Prod.mk.injEq] at h2
      obtain ⟨rfl, rfl⟩ := h2
      obtain ⟨p, rfl, hp⟩ := ih _ h1
      refine ⟨c :: p, rfl, .cons ?_ hp⟩
      split
      · exact .inr rfl
      · exact .inl rfl

theorem Cased.append {T : CharTab} {a b c d : List Byte} (h : Cased T a b) (k : Cased T c d) : Cased T (a ++ c) (b ++ d) := by
  induction h with
  | nil => exact k
  | cons h _ ih => exact .cons h ih

theorem setLoop_cased (T : CharTab) (n cap : Nat) (mem : List Byte) {out : List Byte} (h : setLoop T n cap mem = some out) : Cased T out mem := by
  induction n generalizing cap mem out with
  | zero => cases mem <;> (cases h; exact .refl _ _)
  | succ n ih =>
    cases mem with
    | nil => cases h
    | cons c mem =>
      simp only [setLoop] at h
      split at h
      · cases h; exact .refl _ _
      · simp only [bind, pure, Option.bind_eq_some_iff] at h
        obtain ⟨⟨d, r⟩, h1, h2⟩ := h
        obtain ⟨p, hp, hc⟩ := setPart_cased T _ _ h1
        rw [hp]
        cases r with
        | nil => cases h2
        | cons e r =>
          simp only at h2
          split at h2
          · rw [Option.bind_eq_some_iff] at h2
            obtain ⟨q, h3, h4⟩ := h2
            cases h4
            exact hc.append (.cons (.inl rfl) (ih _ _ h3))
          · rw [Option.bind_eq_some_iff] at h2
            obtain ⟨q, h3, h4⟩ := h2
            cases h4
            exact hc.append (ih _ _ h3)

theorem capSet_cased {T : CharTab} {mem out : List Byte} {len min : Nat} (h : capSet T mem len min = some out) : Cased T out mem := by
  simp only [capSet] at h
  split at h
  · cases h
  · exact setLoop_cased _ _ _ _ h

theorem fuzzyForm_cased {L : FuzzyLang} {junk stem flex form j : List Byte} {psp : Nat} (h : fuzzyForm L junk stem flex psp = some (form, j)) :
    Cased L.tab form (stem ++ flex) := by
  simp only [fuzzyForm] at h
  split at h
  · cases h
  · split at h
    · simp only [bind, pure, Option.bind_eq_some_iff, Option.some.injEq, Prod.mk.injEq] at h
      obtain ⟨cap, -, mem, h1, rfl, -⟩ := h
      have := List.forall₂_take (stem.length + flex.length) (capSet_cased h1)
      rw [List.take_left' (by simp)] at this
      exact this
    · cases h
      rw [List.take_left' (by simp)]
      exact .refl _ _

theorem Cased.width {T : CharTab} {x y : List Byte} (h : Cased T x y) (he : ∀ b, (enc (T.upper b)).length = (enc b).length) :
    (inPage enc x).length = (inPage enc y).length := by
  induction h with
  | nil => rfl
  | cons h _ ih =>
    simp only [inPage, List.flatMap_cons, List.length_append] at ih ⊢
    rw [ih]
    rcases h with rfl | rfl
    · rfl
    · rw [he]

/-! ### A call -/

/-- `fuzzyOpen` with any buffer. -/
def fuzzyOpenWith (app : App) (L : FuzzyLang) (rank : FuzzyRank ω) (junk word : List Byte) (clemma : Nat) (ref : FuzzyRef)
    (partsp sets : Nat) (pclass : List Byte) (s : FuzzyState ω) : Option (Option Int × FuzzyState ω) :=
  if s.stems.getLast?.any fun x => x.nclass == ref.cls && x.ccstem == clemma + 2 then some (none, s)
  else
    match rank.run (word.length - clemma - 1) ref.power partsp ref.form sets with
    | none => none
    | some weight =>
      if s.stems.length = 64 then some (some LEMMBUFF_FAILED, s)
      else if s.forms.buf.isSome then
        match getbyte (pclass.drop 1) with
        | none => none
        | some (ccflex, p) =>
          if clemma + 2 + ccflex ≥ 0x40 then some (some WORDBUFF_FAILED, { s with stems := closeLast s.gcur s.stems ++
            [⟨s.forms.buf.map fun _ => s.forms.pos, clemma + 2, ref.cls, s.grams.map fun _ => s.gcur, 0, weight⟩] })
          else
            match strncpyOf p ccflex with
            | none => none
            | some flex =>
              if word.length < clemma + 2 then none
              else
                match fuzzyForm L junk (word.take (clemma + 2)) flex partsp with
                | none => none
                | some (form, _) =>
                  match app s.forms form with
                  | none => none
                  | some (ok, c) => some (if ok then none else some LEMMBUFF_FAILED, { s with
                      stems := closeLast s.gcur s.stems ++
                        [⟨s.forms.buf.map fun _ => s.forms.pos, clemma + 2, ref.cls, s.grams.map fun _ => s.gcur, 0, weight⟩],
                      forms := c })
      else some (none, { s with stems := closeLast s.gcur s.stems ++
            [⟨s.forms.buf.map fun _ => s.forms.pos, clemma + 2, ref.cls, s.grams.map fun _ => s.gcur, 0, weight⟩] })

theorem fuzzyOpen_with (L : FuzzyLang) (rank : FuzzyRank ω) (junk word : List Byte) (clemma : Nat) (ref : FuzzyRef)
    (partsp sets : Nat) (pclass : List Byte) (s : FuzzyState ω) :
    fuzzyOpen L rank junk word clemma ref partsp sets pclass s = fuzzyOpenWith Coder.appendz L rank junk word clemma ref partsp sets pclass s := by
  simp only [fuzzyOpen, fuzzyOpenWith]
  split
  · rfl
  · rcases rank.run (word.length - clemma - 1) ref.power partsp ref.form sets with _ | w
    · rfl
    · simp only [bind, Option.bind_some]
      split
      · rfl
      · split
        · rcases getbyte (pclass.drop 1) with _ | ⟨cc, p⟩
          · rfl
          · simp only [Option.bind_some]
            split
            · rfl
            · rcases strncpyOf p cc with _ | flex
              · rfl
              · simp only [Option.bind_some]
                split
                · rfl
                · rcases fuzzyForm L junk (word.take (clemma + 2)) flex partsp with _ | ⟨form, j⟩
                  · rfl
                  · simp only [Option.bind_some]
                    rcases s.forms.appendz form with _ | ⟨_ | _, c⟩ <;> rfl
        · rfl

theorem fuzzyOpenIn_with (L : FuzzyLang) (rank : FuzzyRank ω) (junk word : List Byte) (clemma : Nat) (ref : FuzzyRef)
    (partsp sets : Nat) (pclass : List Byte) (s : FuzzyState ω) :
    fuzzyOpenIn P L rank junk word clemma ref partsp sets pclass s =
      fuzzyOpenWith (Coder.appendzIn P) L rank junk word clemma ref partsp sets pclass s := by
  simp only [fuzzyOpenIn, fuzzyOpenWith]
  split
  · rfl
  · rcases rank.run (word.length - clemma - 1) ref.power partsp ref.form sets with _ | w
    · rfl
    · simp only [bind, Option.bind_some]
      split
      · rfl
      · split
        · rcases getbyte (pclass.drop 1) with _ | ⟨cc, p⟩
          · rfl
          · simp only [Option.bind_some]
            split
            · rfl
            · rcases strncpyOf p cc with _ | flex
              · rfl
              · simp only [Option.bind_some]
                split
                · rfl
                · rcases fuzzyForm L junk (word.take (clemma + 2)) flex partsp with _ | ⟨form, j⟩
                  · rfl
                  · simp only [Option.bind_some]
                    rcases s.forms.appendzIn P form with _ | ⟨_ | _, c⟩ <;> rfl
        · rfl

/-- A description behind the others. -/
def fuzzyGram (partsp : Nat) (ref : FuzzyRef) (s : FuzzyState ω) : Option Int × FuzzyState ω :=
  match s.grams with
  | none => (none, s)
  | some g =>
    if s.gcur < g.length then (none, { s with grams := some (g.set s.gcur ⟨partsp, ref.form, 0, 0⟩), gcur := s.gcur + 1 })
    else (some GRAMBUFF_FAILED, s)

/-- `fuzzyCall` with any buffer. -/
def fuzzyCallWith (app : App) (L : FuzzyLang) (im : FuzzyImages) (rank : FuzzyRank ω) (junk word : List Byte) (scheme dwsets : Nat)
    (v : FuzzyVisit) (s : FuzzyState ω) : Option (Option Int × FuzzyState ω) :=
  match fuzzyClass im v.2.cls with
  | none => none
  | some none => some (some (-1), s)
  | some (some (partsp, sets, _, pclass)) =>
    match (if L.caps && dwsets &&& sfIgnoreCapitals == 0 then (fuzzyMinCap partsp).map (isGood scheme) else some true : Option Bool) with
    | none => none
    | some false => some (none, s)
    | some true =>
      match fuzzyOpenWith app L rank junk word v.1 v.2 partsp sets pclass s with
      | none => none
      | some (some r, s) => some (some r, s)
      | some (none, s) => some (fuzzyGram partsp v.2 s)

theorem fuzzyCall_with (L : FuzzyLang) (im : FuzzyImages) (rank : FuzzyRank ω) (junk word : List Byte) (scheme dwsets : Nat)
    (v : FuzzyVisit) (s : FuzzyState ω) :
    fuzzyCall L im rank junk word scheme dwsets v.1 v.2 s = fuzzyCallWith Coder.appendz L im rank junk word scheme dwsets v s := by
  simp only [fuzzyCall, fuzzyCallWith]
  rcases fuzzyClass im v.2.cls with _ | _ | ⟨psp, sets, fc, pc⟩
  · rfl
  · rfl
  · simp only [bind, Option.bind_some]
    rcases (if L.caps && dwsets &&& sfIgnoreCapitals == 0 then (fuzzyMinCap psp).map (isGood scheme) else some true : Option Bool) with _ | _ | _
    · rfl
    · rfl
    · simp only [Option.bind_some, fuzzyOpen_with]
      rcases fuzzyOpenWith Coder.appendz L rank junk word v.1 v.2 psp sets pc s with _ | ⟨_ | r, s'⟩
      · rfl
      · simp only [Option.bind_some, fuzzyGram, Bool.not_true, Bool.false_eq_true, if_false]
        rcases s'.grams with _ | g
        · rfl
        · simp only; split <;> rfl
      · rfl

theorem fuzzyCallIn_with (L : FuzzyLang) (im : FuzzyImages) (rank : FuzzyRank ω) (junk word : List Byte) (scheme dwsets : Nat)
    (v : FuzzyVisit) (s : FuzzyState ω) :
    fuzzyCallIn P L im rank junk word scheme dwsets v.1 v.2 s = fuzzyCallWith (Coder.appendzIn P) L im rank junk word scheme dwsets v s := by
  simp only [fuzzyCallIn, fuzzyCallWith]
  rcases fuzzyClass im v.2.cls with _ | _ | ⟨psp, sets, fc, pc⟩
  · rfl
  · rfl
  · simp only [bind, Option.bind_some]
    rcases (if L.caps && dwsets &&& sfIgnoreCapitals == 0 then (fuzzyMinCap psp).map (isGood scheme) else some true : Option Bool) with _ | _ | _
    · rfl
    · rfl
    · simp only [Option.bind_some, fuzzyOpenIn_with]
      rcases fuzzyOpenWith (Coder.appendzIn P) L rank junk word v.1 v.2 psp sets pc s with _ | ⟨_ | r, s'⟩
      · rfl
      · simp only [Option.bind_some, fuzzyGram, Bool.not_true, Bool.false_eq_true, if_false]
        rcases s'.grams with _ | g
        · rfl
        · simp only; split <;> rfl
      · rfl

end Libmorph
