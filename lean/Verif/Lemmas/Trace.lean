import Verif.Model.EngRun
/-
On any image whatsoever the calls a scan makes do not depend on the collector: the scan is a list of
calls, made one after another until one stops it, followed by a normal end or by undefined behaviour.
-/
namespace Libmorph

/-- Make calls one after another until one stops; at the end, normal (`true`) or undefined. -/
def runTrace {α σ ρ : Type} (act : α → σ → Option (Option ρ × σ)) : List α → Bool → σ → Option (Option ρ × σ)
  | [], ok, s => if ok then some (none, s) else none
  | x :: l, ok, s =>
    match act x s with
    | none => none
    | some (some r, s') => some (some r, s')
    | some (none, s') => runTrace act l ok s'

theorem runTrace_append {α σ ρ : Type} (act : α → σ → Option (Option ρ × σ)) (l1 l2 : List α) (ok : Bool) (s : σ) :
    runTrace act (l1 ++ l2) ok s = match runTrace act l1 true s with
      | none => none
      | some (some r, s') => some (some r, s')
      | some (none, s') => runTrace act l2 ok s' := by
  induction l1 generalizing s with
  | nil => rfl
  | cons x l1 ih =>
    simp only [List.cons_append, runTrace]
    cases act x s with
    | none => rfl
    | some z => obtain ⟨q, s'⟩ := z; cases q with
      | some q => rfl
      | none => exact ih s'

/-- A program that makes calls and is the same for every collector. -/
def Traced {α : Type} (F : ∀ {σ ρ : Type}, (α → σ → Option (Option ρ × σ)) → σ → Option (Option ρ × σ)) : Prop :=
  ∃ (l : List α) (ok : Bool), ∀ {σ ρ : Type} (act : α → σ → Option (Option ρ × σ)) (s : σ), F act s = runTrace act l ok s

theorem traced_ub {α : Type} : Traced (α := α) (fun {_ _} _ _ => none) := ⟨[], false, fun _ _ => rfl⟩
theorem traced_done {α : Type} : Traced (α := α) (fun {_ _} _ s => some (none, s)) := ⟨[], true, fun _ _ => rfl⟩
theorem traced_call {α : Type} (x : α) : Traced (α := α) (fun {_ _} act s => act x s) := by
  refine ⟨[x], true, fun act s => ?_⟩
  simp only [runTrace]
  cases act x s with
  | none => rfl
  | some z => obtain ⟨q, s'⟩ := z; cases q <;> rfl

theorem traced_seq {α : Type} {F G : ∀ {σ ρ : Type}, (α → σ → Option (Option ρ × σ)) → σ → Option (Option ρ × σ)}
    (hF : Traced F) (hG : Traced G) :
    Traced (fun {_ _} act s => (F act s).bind fun z => match z.1 with
      | some r => some (some r, z.2)
      | none => G act z.2) := by
  obtain ⟨l1, ok1, h1⟩ := hF
  obtain ⟨l2, ok2, h2⟩ := hG
  cases ok1 with
  | true =>
    refine ⟨l1 ++ l2, ok2, fun act s => ?_⟩
    have e := h1 act s
    simp only at e ⊢
    rw [runTrace_append, e]
    cases runTrace act l1 true s with
    | none => rfl
    | some z => obtain ⟨q, s'⟩ := z; cases q with
      | some q => rfl
      | none => exact h2 act s'
  | false =>
    refine ⟨l1, false, fun act s => ?_⟩
    have e := h1 act s
    simp only at e ⊢
    rw [e]
    have key : ∀ (l : List α) (s), runTrace act l false s = none ∨ ∃ r s', runTrace act l false s = some (some r, s') := by
      intro l
      induction l with
      | nil => intro s; exact Or.inl rfl
      | cons x l ih =>
        intro s
        simp only [runTrace]
        cases act x s with
        | none => exact Or.inl rfl
        | some z => obtain ⟨q, s'⟩ := z; cases q with
          | some q => exact Or.inr ⟨q, s', rfl⟩
          | none => exact ih s'
    rcases key l1 s with h | ⟨r, s', h⟩ <;> rw [h] <;> rfl

theorem traced_congr {α : Type} {F G : ∀ {σ ρ : Type}, (α → σ → Option (Option ρ × σ)) → σ → Option (Option ρ × σ)}
    (hF : Traced F) (h : ∀ {σ ρ : Type} (act : α → σ → Option (Option ρ × σ)) (s : σ), G act s = F act s) : Traced G := by
  obtain ⟨l, ok, h1⟩ := hF
  exact ⟨l, ok, fun act s => (h act s).trans (h1 act s)⟩

/-- Calls of calls. -/
theorem traced_comp {α β : Type} {F : ∀ {σ ρ : Type}, (α → σ → Option (Option ρ × σ)) → σ → Option (Option ρ × σ)}
    {K : α → ∀ {σ ρ : Type}, (β → σ → Option (Option ρ × σ)) → σ → Option (Option ρ × σ)}
    (hF : Traced F) (hK : ∀ x, Traced (K x)) : Traced (fun {_ _} act s => F (fun x => K x act) s) := by
  obtain ⟨l, ok, h1⟩ := hF
  suffices h : Traced (fun {σ ρ} (act : β → σ → Option (Option ρ × σ)) s => runTrace (fun x => K x act) l ok s) from
    traced_congr h fun act s => h1 _ s
  clear h1
  induction l with
  | nil => cases ok with
    | true => exact traced_done
    | false => exact traced_ub
  | cons x l ih =>
    refine traced_congr (traced_seq (hK x) ih) fun act s => ?_
    simp only [runTrace]
    cases K x act s with
    | none => rfl
    | some z => obtain ⟨q, s'⟩ := z; cases q <;> rfl

/-! ### The scans -/

theorem scanKids_traced {β : Type}
    {act : List Byte → Frag → ∀ {σ ρ : Type}, (β → σ → Option (Option ρ × σ)) → σ → Option (Option ρ × σ)}
    {descend : List Byte → ∀ {σ ρ : Type}, (β → σ → Option (Option ρ × σ)) → σ → Option (Option ρ × σ)}
    (hact : ∀ p f, Traced (act p f)) (hd : ∀ p, Traced (descend p)) (up : Bool) (ch : Byte) (f : Frag) (n : Nat) (p : List Byte) :
    Traced (fun {_ _} out s => scanKids (fun p f => act p f out) (fun p => descend p out) up ch f n p s) := by
  induction n generalizing p with
  | zero =>
    cases up with
    | true => exact traced_congr (hact p f) fun _ _ => by simp [scanKids]
    | false => exact traced_congr traced_done fun _ _ => by simp [scanKids]
  | succ n ih =>
    cases hb : getbyte p with
    | none => exact traced_congr traced_ub fun _ _ => by simp [scanKids, hb]
    | some z =>
      obtain ⟨chnext, p1⟩ := z
      cases hs : getserial p1 with
      | none => exact traced_congr traced_ub fun _ _ => by simp [scanKids, hb, hs]
      | some y =>
        obtain ⟨sublen, sub⟩ := y
        by_cases h1 : ch = chnext
        · refine traced_congr (traced_seq (hd sub) (ih (sub.drop sublen))) fun out s => ?_
          simp only [scanKids, hb, hs, bind, Option.bind_some, if_pos h1, pure]
          rfl
        · by_cases h2 : (decide (ch > chnext) && !up) = true
          · refine traced_congr traced_done fun out s => ?_
            simp only [scanKids, hb, hs, bind, Option.bind_some, if_neg h1, if_pos h2, pure]
          · refine traced_congr (ih (sub.drop sublen)) fun out s => ?_
            simp only [scanKids, hb, hs, bind, Option.bind_some, if_neg h1, if_neg h2]

theorem scanNode_traced {β : Type} (c : Counter)
    {act : List Byte → Frag → ∀ {σ ρ : Type}, (β → σ → Option (Option ρ × σ)) → σ → Option (Option ρ × σ)}
    (hact : ∀ p f, Traced (act p f)) (d : Nat) (p : List Byte) (f : Frag) :
    Traced (fun {_ _} out s => scanNode c (fun p f => act p f out) d p f s) := by
  induction d generalizing p f with
  | zero => exact traced_ub
  | succ d ih =>
    cases hg : getcount c p with
    | none => exact traced_congr traced_ub fun _ _ => by simp [scanNode, hg]
    | some z =>
      obtain ⟨flags, dic⟩ := z
      cases hc : chfindOf f with
      | none => exact traced_congr traced_ub fun _ _ => by simp [scanNode, hg, hc]
      | some ch =>
        refine traced_congr (scanKids_traced (descend := fun sub {_ _} out s => scanNode c (fun p f => act p f out) d sub f.next s)
          hact (fun sub => ih sub f.next) (c.hasupper flags) ch f (c.getlower flags) dic) fun out s => ?_
        simp only [scanNode, hg, hc, bind, Option.bind_some]

/-- The arguments of a call to the output of a list scan: lexeme id, class offset, ending, suffix. -/
abbrev EntryCall := Nat × Nat × Frag × List Byte

theorem lookupLoop_traced (f : Frag) (n : Nat) (p : List Byte) :
    Traced (α := EntryCall) (fun {_ _} out s => lookupLoop (fun a b c d => out (a, b, c, d)) f n p s) := by
  induction n generalizing p with
  | zero => exact traced_done
  | succ n ih =>
    cases he : readEntry p with
    | none => exact traced_congr traced_ub fun _ _ => by simp [lookupLoop, he]
    | some z =>
      obtain ⟨⟨cmin, cmax, id, oc, suf⟩, p'⟩ := z
      cases hsc : suffixCheck f suf with
      | none => exact traced_congr traced_ub fun _ _ => by simp [lookupLoop, he, hsc]
      | some cc =>
        cases cc with
        | none => exact traced_congr (ih p') fun _ _ => by simp [lookupLoop, he, hsc]
        | some ccflex =>
          cases hp : pruneStep f cmin cmax ccflex with
          | none => exact traced_congr traced_ub fun _ _ => by simp [lookupLoop, he, hsc, hp]
          | some pr =>
            cases pr with
            | stop => exact traced_congr traced_done fun _ _ => by simp [lookupLoop, he, hsc, hp]
            | skip => exact traced_congr (ih p') fun _ _ => by simp [lookupLoop, he, hsc, hp]
            | call k =>
              refine traced_congr (traced_seq (traced_call (id, oc, ⟨f.mem, k⟩, suf.getD [])) (ih p')) fun out s => ?_
              simp only [lookupLoop, he, hsc, hp, bind, Option.bind_some, pure]
              rfl

theorem lookupList_traced (p : List Byte) (f : Frag) :
    Traced (α := EntryCall) (fun {_ _} out s => lookupList (fun a b c d => out (a, b, c, d)) p f s) := by
  cases hg : getserial p with
  | none => exact traced_congr traced_ub fun _ _ => by simp [lookupList, hg]
  | some z =>
    obtain ⟨n, p'⟩ := z
    exact traced_congr (lookupLoop_traced f n p') fun _ _ => by simp [lookupList, hg]

/-- The arguments of a call to a collector: lexeme id, stem information, ending, suffix, descriptions. -/
abbrev TargetCall := Nat × StemInfo × Frag × List Byte × List Gram

theorem matchClass_traced (im : Images) (scheme dwsets : Nat) (x : EntryCall) :
    Traced (α := TargetCall) (fun {_ _} out s =>
      matchClass im scheme dwsets (fun a b c d e => out (a, b, c, d, e)) x.1 x.2.1 x.2.2.1 x.2.2.2 s) := by
  cases hl : loadStem im.classmap x.2.1 with
  | none => exact traced_congr traced_ub fun _ _ => by simp [matchClass, hl]
  | some st =>
    by_cases hg : (decide (dwsets &&& sfIgnoreCapitals = 0) && !isGood scheme st.minCap) = true
    · exact traced_congr traced_done fun _ _ => by simp only [matchClass, hl, bind, Option.bind_some, if_pos hg, pure]
    · cases ht : st.flexTable im.flexTree with
      | none =>
        by_cases h0 : x.2.2.1.len = 0
        · refine traced_congr (traced_call (x.1, ⟨st.wdinfo, 0⟩, x.2.2.1, x.2.2.2, [⟨0, 0, st.tfoffs, 0⟩])) fun out s => ?_
          simp only [matchClass, hl, bind, Option.bind_some, if_neg hg, ht, if_pos h0]
        · refine traced_congr traced_done fun out s => ?_
          simp only [matchClass, hl, bind, Option.bind_some, if_neg hg, ht, if_neg h0, pure]
      | some table =>
        cases hs : scanTables table st.wdinfo x.2.2.1 with
        | none =>
          refine traced_congr traced_ub fun out s => ?_
          simp only [matchClass, hl, bind, Option.bind_some, if_neg hg, ht, hs, Option.bind_none]
        | some grams =>
          by_cases h0 : grams.length ≠ 0
          · refine traced_congr (traced_call (x.1, st, x.2.2.1, x.2.2.2, grams)) fun out s => ?_
            simp only [matchClass, hl, bind, Option.bind_some, if_neg hg, ht, hs, if_pos h0]
          · refine traced_congr traced_done fun out s => ?_
            simp only [matchClass, hl, bind, Option.bind_some, if_neg hg, ht, hs, if_neg h0, pure]

/-- The entries a word scan comes to, for any images. -/
theorem scanEntries_traced (im : Images) (f : Frag) :
    Traced (α := EntryCall) (fun {_ _} out s => scanTree .u8 (lookupList (fun a b c d => out (a, b, c, d))) im.stemtree f s) :=
  traced_congr (scanNode_traced .u8 (act := fun p f {_ _} out s => lookupList (fun a b c d => out (a, b, c, d)) p f s)
    lookupList_traced maxLevels im.stemtree f) fun _ _ => rfl

theorem scanWord_traced (im : Images) (locase junk : List Byte) (scheme dwsets : Nat) :
    Traced (α := TargetCall) (fun {_ _} out s =>
      scanWord im locase junk scheme dwsets (fun a b c d e => out (a, b, c, d, e)) s) :=
  traced_congr (traced_comp (scanEntries_traced im ⟨locase ++ 0 :: junk, scheme >>> 16⟩)
    (matchClass_traced im (scheme % 65536) dwsets)) fun _ _ => rfl

end Libmorph
