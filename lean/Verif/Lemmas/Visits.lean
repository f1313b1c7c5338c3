import Verif.Lemmas.Hits
import Verif.Model.RusRun
/-
A traversal of an image, whatever the image, is a sequence of calls of the collector that does not depend on the collector; it
ends after the last call, or there the code has no defined behaviour.
-/
namespace Libmorph

variable {σ ρ : Type} {α β : Type}

/-- Run a collector over a list; behind it the outcome is defined or not. -/
def runThen (V : List α) (ok : Bool) (f : α → σ → Option (Option ρ × σ)) (s : σ) : Option (Option ρ × σ) :=
  match runList f V s with
  | some (none, s') => if ok then some (none, s') else none
  | x => x

/-- A traversal. -/
abbrev Traversal (α : Type) := ∀ (σ ρ : Type), (α → σ → Option (Option ρ × σ)) → σ → Option (Option ρ × σ)

/-- A traversal that is a sequence of calls. -/
def Listed (scan : Traversal α) : Prop :=
  ∃ V ok, ∀ σ ρ (f : α → σ → Option (Option ρ × σ)) s, scan σ ρ f s = runThen V ok f s

theorem Listed.done : Listed (fun _ _ _ s => some (none, s) : Traversal α) := ⟨[], true, fun _ _ _ _ => rfl⟩

theorem Listed.undefined : Listed (fun _ _ _ _ => none : Traversal α) := ⟨[], false, fun _ _ _ _ => rfl⟩

theorem Listed.call (a : α) : Listed (fun _ _ f s => f a s : Traversal α) := by
  refine ⟨[a], true, fun _ _ f s => ?_⟩
  simp only [runThen, runList]
  rcases f a s with _ | ⟨_ | r, s'⟩ <;> rfl

/-- One after the other. -/
theorem Listed.seq {p q : Traversal α} (hp : Listed p) (hq : Listed q) :
    Listed (fun σ ρ f s => match p σ ρ f s with
      | none => none
      | some (some r, s') => some (some r, s')
      | some (none, s') => q σ ρ f s') := by
  obtain ⟨V, ok, hp⟩ := hp
  obtain ⟨W, ok', hq⟩ := hq
  cases ok with
  | false =>
    refine ⟨V, false, fun σ ρ f s => ?_⟩
    simp only [hp, runThen]
    rcases runList f V s with _ | ⟨_ | r, s'⟩ <;> rfl
  | true =>
    refine ⟨V ++ W, ok', fun σ ρ f s => ?_⟩
    simp only [hp, runThen, runList_append]
    rcases runList f V s with _ | ⟨_ | r, s'⟩
    · rfl
    · simp only [if_true, hq, runThen]
    · rfl

theorem Listed.of_eq {p q : Traversal α} (h : ∀ σ ρ f s, p σ ρ f s = q σ ρ f s) (hp : Listed p) : Listed q := by
  obtain ⟨V, ok, hp⟩ := hp
  exact ⟨V, ok, fun σ ρ f s => by rw [← h, hp]⟩

/-- A traversal whose collector is itself a traversal. -/
theorem Listed.bind {p : Traversal β} {q : β → Traversal α} (hp : Listed p) (hq : ∀ b, Listed (q b)) :
    Listed (fun σ ρ f s => p σ ρ (fun b => q b σ ρ f) s) := by
  obtain ⟨V, ok, hp⟩ := hp
  refine Listed.of_eq (fun σ ρ f s => (hp σ ρ _ s).symm) ?_
  clear hp
  induction V with
  | nil =>
    cases ok
    · exact Listed.undefined
    · exact Listed.done
  | cons b V ih =>
    refine Listed.of_eq (fun σ ρ f s => ?_) ((hq b).seq ih)
    simp only [runThen, runList]
    rcases q b σ ρ f s with _ | ⟨_ | r, s'⟩ <;> rfl

/-! ### The traversals of the library -/

theorem scanKids_listed {d : List Byte → Traversal (List Byte × Frag)} (hd : ∀ sub, Listed (d sub)) (up : Bool) (ch : Byte) (f : Frag)
    (n : Nat) (dic : List Byte) :
    Listed (fun σ ρ act s => scanKids (fun p f => act (p, f)) (fun sub s => d sub σ ρ act s) up ch f n dic s) := by
  induction n generalizing dic with
  | zero =>
    cases up
    · exact Listed.done
    · exact Listed.call (dic, f)
  | succ n ih =>
    simp only [scanKids]
    cases h1 : getbyte dic with
    | none => simpa using Listed.undefined
    | some x =>
      obtain ⟨c, dic1⟩ := x
      cases h2 : getserial dic1 with
      | none => simpa [h2] using Listed.undefined
      | some y =>
        obtain ⟨len, sub⟩ := y
        simp only [bind, Option.bind_some, h2]
        by_cases hc : ch = c
        · simp only [if_pos hc]
          refine Listed.of_eq (fun σ ρ act s => ?_) ((hd sub).seq (ih (sub.drop len)))
          rcases d sub σ ρ act s with _ | ⟨_ | r, s'⟩ <;> rfl
        · simp only [if_neg hc]
          split
          · exact Listed.done
          · exact ih _

theorem scanNode_listed (c : Counter) (d : Nat) (p : List Byte) (f : Frag) :
    Listed (fun σ ρ act s => scanNode (σ := σ) (ρ := ρ) c (fun p f => act (p, f)) d p f s) := by
  induction d generalizing p f with
  | zero => exact Listed.undefined
  | succ d ih =>
    simp only [scanNode]
    cases h1 : getcount c p with
    | none => simpa using Listed.undefined
    | some x =>
      cases h2 : chfindOf f with
      | none => simpa using Listed.undefined
      | some ch =>
        simp only [bind, Option.bind_some]
        exact scanKids_listed (d := fun sub σ ρ act s => scanNode c (fun p f => act (p, f)) d sub f.next s) (fun sub => ih sub _) _ _ _ _ _

theorem lookupLoop_listed (f : Frag) (n : Nat) (p : List Byte) :
    Listed (fun σ ρ out s => lookupLoop (σ := σ) (ρ := ρ) (fun a b c d => out (a, b, c, d)) f n p s) := by
  induction n generalizing p with
  | zero => exact Listed.done
  | succ n ih =>
    simp only [lookupLoop]
    cases h1 : readEntry p with
    | none => simpa using Listed.undefined
    | some x =>
      obtain ⟨⟨cmin, cmax, id, oc, suf⟩, p'⟩ := x
      cases h2 : suffixCheck f suf with
      | none => simpa [h2] using Listed.undefined
      | some cc =>
        cases cc with
        | none => simpa [h2] using ih p'
        | some cc =>
          cases h3 : pruneStep f cmin cmax cc with
          | none => simpa [h2, h3] using Listed.undefined
          | some pr =>
            simp only [bind, Option.bind_some, h2, h3]
            cases pr with
            | stop => exact Listed.done
            | skip => exact ih _
            | call cc' =>
              refine Listed.of_eq (fun σ ρ out s => ?_) ((Listed.call (id, oc, (⟨f.mem, cc'⟩ : Frag), suf.getD [])).seq (ih p'))
              simp only
              rcases out (id, oc, (⟨f.mem, cc'⟩ : Frag), suf.getD []) s with _ | ⟨_ | r, s'⟩ <;> rfl

theorem lookupList_listed (p : List Byte) (f : Frag) :
    Listed (fun σ ρ out s => lookupList (σ := σ) (ρ := ρ) (fun a b c d => out (a, b, c, d)) p f s) := by
  simp only [lookupList]
  cases h1 : getserial p with
  | none => simpa using Listed.undefined
  | some x => simpa using lookupLoop_listed f x.1 x.2

theorem mixLoop_listed (inflex : Frag) (n : Nat) (p : List Byte) :
    Listed (fun σ ρ call s => mixLoop (σ := σ) (ρ := ρ) (fun a b => call (a, b)) inflex n p s) := by
  induction n generalizing p with
  | zero => exact Listed.done
  | succ n ih =>
    simp only [mixLoop]
    cases h1 : getbyte p with
    | none => simpa using Listed.undefined
    | some x =>
      obtain ⟨head, p'⟩ := x
      cases h2 : mixCompare p' (head &&& 0x0f) inflex with
      | none => simpa [h2] using Listed.undefined
      | some m =>
        simp only [bind, Option.bind_some, h2]
        cases m with
        | stop => exact Listed.done
        | skip => exact ih _
        | take =>
          refine Listed.of_eq (fun σ ρ call s => ?_) ((Listed.call (head >>> 4, (⟨inflex.mem.drop (head &&& 0x0f), inflex.len - (head &&& 0x0f)⟩ : Frag))).seq
            (ih (p'.drop (head &&& 0x0f))))
          simp only
          rcases call (head >>> 4, (⟨inflex.mem.drop (head &&& 0x0f), inflex.len - (head &&& 0x0f)⟩ : Frag)) s with _ | ⟨_ | r, s'⟩ <;> rfl

theorem mixScan_listed (mixtab : List Byte) (inflex : Frag) :
    Listed (fun σ ρ call s => mixScan (σ := σ) (ρ := ρ) (fun a b => call (a, b)) mixtab inflex s) := by
  simp only [mixScan]
  cases h4 : getbyte mixtab with
  | none => exact Listed.undefined
  | some x => exact mixLoop_listed inflex x.1 x.2

/-- What the collector of the Russian dictionary is told. -/
abbrev RusVisit := Nat × RusStem × Frag × List Byte × List Gram

theorem rusMatch_listed (im : RusImages) (scheme dwsets id oclass : Nat) (inflex : Frag) (suffix : List Byte) :
    Listed (fun σ ρ (t : RusVisit → _) s => rusMatch (σ := σ) (ρ := ρ) im scheme dwsets (fun a b c d e => t (a, b, c, d, e)) id oclass inflex suffix s) := by
  simp only [rusMatch]
  cases h1 : loadRus im.classmap oclass with
  | none => simpa using Listed.undefined
  | some lextem =>
    simp only [bind, Option.bind_some]
    split
    · exact Listed.done
    · cases h2 : lextem.flexTable im.flexTree with
      | none =>
        simp only
        split
        · exact Listed.call (id, (⟨lextem.wdinfo, 0, 0⟩ : RusStem), inflex, suffix, [(⟨0, 0, lextem.tfoffs, 0⟩ : Gram)])
        · exact Listed.done
      | some table =>
        have hone : ∀ g rest, Listed (fun σ ρ (t : RusVisit → σ → Option (Option ρ × σ)) s =>
            (scanFlex g table rest).bind fun gs =>
              if gs.length ≠ 0 then t (id, lextem, inflex, suffix, gs.map rawGram) s else pure (none, s)) := by
          intro g rest
          cases h3 : scanFlex g table rest with
          | none => exact Listed.undefined
          | some gs =>
            simp only [Option.bind_some]
            split
            · exact Listed.call _
            · exact Listed.done
        simp only
        cases h3 : lextem.swapTable im.mxTables with
        | none => exact hone _ _
        | some mixtab =>
          have h5 := Listed.bind (mixScan_listed mixtab inflex) (q := fun b => fun σ ρ (t : RusVisit → σ → Option (Option ρ × σ)) s =>
            (scanFlex (altFilter lextem.wdinfo b.1) table b.2).bind fun gs =>
              if gs.length ≠ 0 then t (id, lextem, inflex, suffix, gs.map rawGram) s else pure (none, s)) fun b => hone _ _
          exact h5

/-- The scan of the Russian dictionary with a word. -/
theorem rusScan_listed (im : RusImages) (locase junk : List Byte) (scheme dwsets : Nat) :
    Listed (fun σ ρ (t : RusVisit → _) s => rusScan (σ := σ) (ρ := ρ) im locase junk scheme dwsets (fun a b c d e => t (a, b, c, d, e)) s) := by
  simp only [rusScan, scanTree]
  generalize maxLevels = lv
  have h1 : Listed (fun σ ρ out s => scanNode (σ := σ) (ρ := ρ) .u8 (lookupList fun a b c d => out (a, b, c, d)) lv im.stemtree
      ⟨locase ++ 0 :: junk, scheme >>> 16⟩ s) :=
    Listed.bind (scanNode_listed .u8 lv im.stemtree ⟨locase ++ 0 :: junk, scheme >>> 16⟩)
      (q := fun b σ ρ out s => lookupList (fun a b' c d => out (a, b', c, d)) b.1 b.2 s) fun b => lookupList_listed b.1 b.2
  exact Listed.bind h1 (q := fun b σ ρ (t : RusVisit → σ → Option (Option ρ × σ)) s =>
      rusMatch im (scheme % 65536) dwsets (fun a b c d e => t (a, b, c, d, e)) b.1 b.2.1 b.2.2.1 b.2.2.2 s)
    fun b => rusMatch_listed im _ dwsets b.1 b.2.1 b.2.2.1 b.2.2.2

theorem trackKids_listed {d : Byte → List Byte → Traversal (List Byte × List Byte)} (hd : ∀ c sub, Listed (d c sub))
    {fin : List Byte → Traversal (List Byte × List Byte)} (hf : ∀ dic, Listed (fin dic)) (pos : Option Nat)
    (n : Nat) (dic : List Byte) :
    Listed (fun σ ρ act s => trackKids (fun c sub s => d c sub σ ρ act s) (fun dic s => fin dic σ ρ act s) pos n dic s) := by
  induction n generalizing dic with
  | zero => exact hf dic
  | succ n ih =>
    simp only [trackKids]
    cases h1 : getbyte dic with
    | none => simpa using Listed.undefined
    | some x =>
      obtain ⟨c, dic1⟩ := x
      cases h2 : getserial dic1 with
      | none => simpa [h2] using Listed.undefined
      | some y =>
        obtain ⟨len, sub⟩ := y
        simp only [bind, Option.bind_some, h2]
        have hyes := Listed.of_eq (q := fun σ ρ act s => (d c sub σ ρ act s).bind fun x => match x.1 with
          | some r => pure (some r, x.2)
          | none => trackKids (fun c sub s => d c sub σ ρ act s) (fun dic s => fin dic σ ρ act s) pos n (sub.drop len) x.2)
          (fun σ ρ act s => by rcases h : d c sub σ ρ act s with _ | ⟨_ | r, s'⟩ <;> simp) ((hd c sub).seq (ih (sub.drop len)))
        cases pos with
        | none => exact hyes
        | some r =>
          by_cases hc : r ≤ sub.length ∧ (sub.drop len).length ≤ r
          · simp only [decide_eq_true hc, if_true]
            exact hyes
          · simp only [decide_eq_false hc, if_neg Bool.false_ne_true]
            exact ih _

theorem getTrack_listed (c : Counter) (pos : Option Nat) (room : Nat) (p tr : List Byte) :
    Listed (fun σ ρ act s => getTrack (σ := σ) (ρ := ρ) c (fun p tr => act (p, tr)) pos room p tr s) := by
  induction room generalizing p tr with
  | zero =>
    simp only [getTrack]
    cases h1 : getcount c p with
    | none => simpa using Listed.undefined
    | some x =>
      simp only [bind, Option.bind_some]
      exact trackKids_listed (d := fun _ _ _ _ _ _ => none) (fun _ _ => Listed.undefined)
        (fin := fun dic σ ρ act s => if c.hasupper x.1 then act (dic, tr) s else some (none, s))
        (fun dic => by
          cases c.hasupper x.1
          · exact Listed.done
          · exact Listed.call (dic, tr)) pos _ _
  | succ room ih =>
    rw [show (fun (σ ρ : Type) (act : List Byte × List Byte → σ → Option (Option ρ × σ)) s => getTrack c (fun p tr => act (p, tr)) pos (room + 1) p tr s) =
      fun σ ρ act s => (getcount c p).bind fun x => trackKids (fun ch sub s => getTrack c (fun p tr => act (p, tr)) pos room sub (tr ++ [ch]) s)
        (fun dic s => if c.hasupper x.1 then act (dic, tr) s else some (none, s)) pos (c.getlower x.1) x.2 s from by
      funext σ ρ act s
      rw [getTrack]; rfl]
    cases h1 : getcount c p with
    | none => simpa using Listed.undefined
    | some x =>
      simp only [Option.bind_some]
      exact trackKids_listed (d := fun ch sub σ ρ act s => getTrack c (fun p tr => act (p, tr)) pos room sub (tr ++ [ch]) s) (fun _ _ => ih _ _)
        (fin := fun dic σ ρ act s => if c.hasupper x.1 then act (dic, tr) s else some (none, s))
        (fun dic => by
          cases c.hasupper x.1
          · exact Listed.done
          · exact Listed.call (dic, tr)) pos _ _

theorem selectLoop_listed (pos : Nat) (tr : List Byte) (n : Nat) (p : List Byte) :
    Listed (fun σ ρ out s => selectLoop (σ := σ) (ρ := ρ) (fun a b c d => out (a, b, c, d)) pos tr n p s) := by
  induction n generalizing p with
  | zero => exact Listed.done
  | succ n ih =>
    simp only [selectLoop]
    cases h1 : readEntry p with
    | none => simpa using Listed.undefined
    | some x =>
      obtain ⟨⟨_, _, id, oc, suf⟩, p'⟩ := x
      simp only [bind, Option.bind_some]
      split
      · exact Listed.call (id, oc, tr, suf.getD [])
      · exact ih _

theorem selectView_listed (pos : Nat) (p tr : List Byte) :
    Listed (fun σ ρ out s => selectView (σ := σ) (ρ := ρ) (fun a b c d => out (a, b, c, d)) pos p tr s) := by
  simp only [selectView]
  cases h1 : getserial p with
  | none => simpa using Listed.undefined
  | some x => simpa using selectLoop_listed pos tr x.1 x.2

/-- The way to the entry of a lexeme. -/
theorem track_listed (pos : Nat) (img : List Byte) (room : Nat) :
    Listed (fun σ ρ out s => getTrack (σ := σ) (ρ := ρ) .u8 (selectView (fun a b c d => out (a, b, c, d)) pos) (some pos) room img [] s) :=
  (getTrack_listed .u8 (some pos) room img []).bind (q := fun b σ ρ out s => selectView (fun a b' c d => out (a, b', c, d)) pos b.1 b.2 s)
    fun b => selectView_listed pos b.1 b.2

end Libmorph
