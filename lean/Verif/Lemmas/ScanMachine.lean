import Verif.Model.ScanTree
/- The explicit stack machine of `Flat::ScanTree` computes the recursive traversal. -/
namespace Libmorph
variable {σ ρ : Type}

theorem scanKids_eq_findchar (act : List Byte → Frag → σ → Option (Option ρ × σ))
    (desc : List Byte → σ → Option (Option ρ × σ)) (up : Bool) (ch : Byte) (f : Frag)
    (n : Nat) (dic : List Byte) (s : σ) :
    scanKids act desc up ch f n dic s =
      match findcharLoop up ch n dic with
      | none => none
      | some (none, dic', _) => if up then act dic' f s else some (none, s)
      | some (some sub, dic', n') =>
        match desc sub s with
        | none => none
        | some (some q, s') => some (some q, s')
        | some (none, s') => scanKids act desc up ch f n' dic' s' := by
  induction n generalizing dic with
  | zero => simp [scanKids, findcharLoop]
  | succ n ih =>
    simp only [scanKids, findcharLoop]
    cases h1 : getbyte dic with
    | none => simp
    | some x1 =>
      obtain ⟨chn, dic1⟩ := x1
      simp only [bind, Option.bind]
      cases h2 : getserial dic1 with
      | none => simp
      | some x2 =>
        obtain ⟨sl, sub⟩ := x2
        simp only
        by_cases h3 : ch = chn
        · subst h3
          simp only [if_true, pure]
          cases hd : desc sub s with
          | none => simp
          | some y => obtain ⟨q, s'⟩ := y; cases q <;> simp
        · simp only [h3, if_false]
          by_cases h4 : (decide (ch > chn) && !up) = true
          · simp only [h4, if_true, pure]
            have : up = false := by simp at h4; exact h4.2
            simp [this]
          · simp only [h4]
            rw [ih]
            simp

theorem findcharLoop_lt {up : Bool} {ch : Byte} {n : Nat} {dic sub dic' : List Byte} {n' : Nat}
    (h : findcharLoop up ch n dic = some (some sub, dic', n')) : n' < n := by
  induction n generalizing dic with
  | zero => simp [findcharLoop] at h
  | succ n ih =>
    simp only [findcharLoop] at h
    cases h1 : getbyte dic with
    | none => simp [h1] at h
    | some x1 =>
      obtain ⟨chn, dic1⟩ := x1
      simp only [h1, bind, Option.bind] at h
      cases h2 : getserial dic1 with
      | none => simp [h2] at h
      | some x2 =>
        obtain ⟨sl, sub'⟩ := x2
        simp only [h2] at h
        split at h
        · simp [pure] at h; omega
        · split at h
          · simp [pure] at h
          · exact Nat.lt_succ_of_lt (ih h)

/-- The recursive traversal of one level of the stack. -/
def levelRec (c : Counter) (act : List Byte → Frag → σ → Option (Option ρ × σ)) (d : Nat)
    (l : Level) (s : σ) : Option (Option ρ × σ) :=
  scanKids act (fun sub s => scanNode c act d sub l.str.next s) (c.hasupper l.flags) l.chfind
    l.str l.ccount l.dic s

theorem scanNode_setlevel (c : Counter) (act : List Byte → Frag → σ → Option (Option ρ × σ))
    (d : Nat) (p : List Byte) (f : Frag) (s : σ) :
    scanNode c act (d + 1) p f s =
      match setlevel c p f with
      | none => none
      | some l => levelRec c act d l s := by
  simp only [scanNode, setlevel]
  cases h1 : getcount c p with
  | none => simp
  | some x =>
    obtain ⟨fl, dic⟩ := x
    simp only [bind, Option.bind]
    cases h2 : chfindOf f with
    | none => simp
    | some ch => simp [levelRec, pure]

/-- What a machine run on a non-empty stack does, in terms of the recursion. -/
theorem machine_level (c : Counter) (act : List Byte → Frag → σ → Option (Option ρ × σ))
    (d : Nat) : ∀ (n : Nat) (l : Level) (st : List Level) (s : σ) (r : Option ρ × σ),
    l.ccount = n → st.length + 1 + d = maxLevels →
    ((∃ k, scanMachine c act k (l :: st) s = some r) ↔
      match levelRec c act d l s with
      | none => False
      | some (some q, s') => r = (some q, s')
      | some (none, s') => ∃ k, scanMachine c act k st s' = some r) := by
  induction d with
  | zero =>
    intro n l st s r hn hd
    unfold levelRec
    rw [scanKids_eq_findchar]
    have step : (∃ k, scanMachine c act k (l :: st) s = some r) ↔
        (∃ k, scanMachine c act (k + 1) (l :: st) s = some r) := by
      constructor
      · rintro ⟨k, hk⟩
        cases k with
        | zero => simp [scanMachine] at hk
        | succ k => exact ⟨k, hk⟩
      · rintro ⟨k, hk⟩; exact ⟨_, hk⟩
    rw [step]
    simp only [scanMachine, Level.findchar]
    cases hf : findcharLoop (c.hasupper l.flags) l.chfind l.ccount l.dic with
    | none => simp
    | some x =>
      obtain ⟨q, dic', n'⟩ := x
      cases q with
      | none =>
        simp only [bind, Option.bind, pure]
        by_cases hu : c.hasupper l.flags
        · simp only [hu, if_true]
          cases ha : act dic' l.str s with
          | none => simp
          | some y =>
            obtain ⟨q, s'⟩ := y
            cases q <;> simp [eq_comm]
        · simp [hu]
      | some sub =>
        simp only [bind, Option.bind, pure]
        simp only [show st.length + 1 ≥ maxLevels by omega, if_true]
        simp [scanNode]
  | succ d ihd =>
    intro n
    induction n using Nat.strongRecOn with
    | ind n ihn =>
    intro l st s r hn hd
    unfold levelRec
    rw [scanKids_eq_findchar]
    have step : (∃ k, scanMachine c act k (l :: st) s = some r) ↔
        (∃ k, scanMachine c act (k + 1) (l :: st) s = some r) := by
      constructor
      · rintro ⟨k, hk⟩
        cases k with
        | zero => simp [scanMachine] at hk
        | succ k => exact ⟨k, hk⟩
      · rintro ⟨k, hk⟩; exact ⟨_, hk⟩
    rw [step]
    simp only [scanMachine, Level.findchar]
    cases hf : findcharLoop (c.hasupper l.flags) l.chfind l.ccount l.dic with
    | none => simp
    | some x =>
      obtain ⟨q, dic', n'⟩ := x
      cases q with
      | none =>
        simp only [bind, Option.bind, pure]
        by_cases hu : c.hasupper l.flags
        · simp only [hu, if_true]
          cases ha : act dic' l.str s with
          | none => simp
          | some y =>
            obtain ⟨q, s'⟩ := y
            cases q <;> simp [eq_comm]
        · simp [hu]
      | some sub =>
        have hlt := findcharLoop_lt hf
        simp only [bind, Option.bind, pure]
        simp only [show ¬ (st.length + 1 ≥ maxLevels) by omega, if_false]
        rw [scanNode_setlevel]
        cases hs : setlevel c sub l.str.next with
        | none => simp
        | some l' =>
          simp only
          have hpop := fun s' => ihn n' (by omega) { l with dic := dic', ccount := n' } st s' r rfl hd
          have hch := ihd l'.ccount l' ({ l with dic := dic', ccount := n' } :: st) s r rfl
            (by simp only [List.length_cons]; omega)
          rw [hch]
          cases hr : levelRec c act d l' s with
          | none => simp
          | some y =>
            obtain ⟨q, s'⟩ := y
            cases q with
            | some q => simp
            | none => simpa [levelRec] using hpop s'

theorem scanTree_iff_machine (c : Counter) (act : List Byte → Frag → σ → Option (Option ρ × σ))
    (p : List Byte) (f : Frag) (s : σ) (r : Option ρ × σ) :
    scanTree c act p f s = some r ↔
      ∃ l, setlevel c p f = some l ∧ ∃ k, scanMachine c act k [l] s = some r := by
  have hm : maxLevels = 63 + 1 := rfl
  simp only [scanTree]
  rw [hm, scanNode_setlevel]
  cases hs : setlevel c p f with
  | none => simp
  | some l =>
    have h := machine_level c act 63 l.ccount l [] s r rfl (by simp [maxLevels])
    simp only [Option.some.injEq, exists_eq_left']
    rw [h]
    have h0 : ∀ s', (∃ k, scanMachine c act k [] s' = some r) ↔ (none, s') = r := by
      intro s'
      constructor
      · rintro ⟨k, hk⟩
        cases k with
        | zero => simp [scanMachine] at hk
        | succ k => simpa [scanMachine] using hk
      · intro h; exact ⟨1, by simp [scanMachine, h]⟩
    cases hr : levelRec c act 63 l s with
    | none => simp
    | some y =>
      obtain ⟨q, s'⟩ := y
      cases q with
      | some q => simp [eq_comm]
      | none => simp [h0]

end Libmorph
