import Verif.Model.RusWild
/-
The wildcard search, whatever the image: a sequence of registrations that does not depend on what is done with them, as long as
none of them stops the search.
-/
namespace Libmorph

/-- What is registered. -/
abbrev Found := Nat × List Byte × Gram

/-- A registration that never stops the search. -/
def foundReg {σ : Type} (f : Found → σ → Option σ) : WildReg σ := fun id text g s => (f (id, text, g) s).map fun s => (0, s)

/-- Register in turn. -/
def regAll {σ : Type} (f : Found → σ → Option σ) : List Found → σ → Option σ
  | [], s => some s
  | a :: l, s => (f a s).bind (regAll f l)

theorem regAll_append {σ : Type} (f : Found → σ → Option σ) (l1 l2 : List Found) (s : σ) :
    regAll f (l1 ++ l2) s = (regAll f l1 s).bind (regAll f l2) := by
  induction l1 generalizing s with
  | nil => rfl
  | cons a l ih =>
    simp only [List.cons_append, regAll, Option.bind_assoc]
    congr 1
    funext s
    exact ih s

/-- A search with the registration as a parameter; it begins with the array `m`. -/
abbrev Search := ∀ σ : Type, WildReg σ → WildRun σ

/-- From `m` on: what is registered, and the array at the end (`none`: no defined behaviour). -/
def WListed (scan : Search) : Prop :=
  ∀ m, ∃ V e, ∀ σ (f : Found → σ → Option σ) s, scan σ (foundReg f) (m, s) = (regAll f V s).bind fun s' => (e : Option (List Byte)).map fun m' => (0, (m', s'))

/-- The same for a search that returns a position too. -/
abbrev KidSearch := ∀ σ : Type, WildReg σ → WildSt σ → Option (Int × List Byte × WildSt σ)

def KListed (scan : KidSearch) : Prop :=
  ∀ m, ∃ V e, ∀ σ (f : Found → σ → Option σ) s, scan σ (foundReg f) (m, s) =
    (regAll f V s).bind fun s' => (e : Option (List Byte × List Byte)).map fun m' => (0, m'.1, (m'.2, s'))

theorem WListed.done : WListed fun _ _ st => some (0, st) := fun m => ⟨[], some m, fun _ _ _ => rfl⟩

theorem WListed.undefined : WListed fun _ _ _ => none := fun _ => ⟨[], none, fun _ _ _ => rfl⟩

theorem KListed.done (p : List Byte) : KListed fun _ _ st => some (0, p, st) := fun m => ⟨[], some (p, m), fun _ _ _ => rfl⟩

theorem KListed.undefined : KListed fun _ _ _ => none := fun _ => ⟨[], none, fun _ _ _ => rfl⟩

theorem WListed.of_eq {p q : Search} (h : ∀ σ reg st, p σ reg st = q σ reg st) (hp : WListed p) : WListed q := fun m => by
  obtain ⟨V, e, hp⟩ := hp m
  exact ⟨V, e, fun σ f s => by rw [← h, hp]⟩

theorem WListed.seq {p q : Search} (hp : WListed p) (hq : WListed q) : WListed fun σ reg => (p σ reg).seq (q σ reg) := fun m => by
  obtain ⟨V, e, hp⟩ := hp m
  cases e with
  | none =>
    refine ⟨V, none, fun σ f s => ?_⟩
    simp only [WildRun.seq, hp, Option.map_none, bind]
    cases regAll f V s <;> rfl
  | some m' =>
    obtain ⟨W, e', hq⟩ := hq m'
    refine ⟨V ++ W, e', fun σ f s => ?_⟩
    simp only [WildRun.seq, hp, regAll_append, bind]
    cases regAll f V s with
    | none => rfl
    | some s' => simp [hq]

theorem WListed.poke {q : Search} (hq : WListed q) (n : Nat) (c : Byte) : WListed fun σ reg st => (poke1 n c st).bind (q σ reg) := fun m => by
  by_cases h : n < m.length
  · obtain ⟨V, e, hq⟩ := hq (m.set n c)
    exact ⟨V, e, fun σ f s => by simp only [poke1, h, if_true, Option.bind_some, hq]⟩
  · exact ⟨[], none, fun σ f s => by simp [poke1, h]⟩

theorem KListed.poke {q : KidSearch} (hq : KListed q) (n : Nat) (c : Byte) : KListed fun σ reg st => (poke1 n c st).bind (q σ reg) := fun m => by
  by_cases h : n < m.length
  · obtain ⟨V, e, hq⟩ := hq (m.set n c)
    exact ⟨V, e, fun σ f s => by simp only [poke1, h, if_true, Option.bind_some, hq]⟩
  · exact ⟨[], none, fun σ f s => by simp [poke1, h]⟩

/-- A search, then the next. -/
theorem KListed.after {p : Search} {q : KidSearch} (hp : WListed p) (hq : KListed q) (pos : List Byte) :
    KListed fun σ reg st => (p σ reg st).bind fun x => if x.1 ≠ 0 then some (x.1, pos, x.2) else q σ reg x.2 := fun m => by
  obtain ⟨V, e, hp⟩ := hp m
  cases e with
  | none =>
    refine ⟨V, none, fun σ f s => ?_⟩
    simp only [hp, Option.map_none]
    cases regAll f V s <;> rfl
  | some m' =>
    obtain ⟨W, e', hq⟩ := hq m'
    refine ⟨V ++ W, e', fun σ f s => ?_⟩
    simp only [hp, regAll_append]
    cases regAll f V s with
    | none => rfl
    | some s' => simp [hq]

/-- The children, then the rest. -/
theorem KListed.then {p : KidSearch} {q : List Byte → Search} (hp : KListed p) (hq : ∀ pos, WListed (q pos)) :
    WListed fun σ reg st => (p σ reg st).bind fun x => if x.1 ≠ 0 then some (x.1, x.2.2) else q x.2.1 σ reg x.2.2 := fun m => by
  obtain ⟨V, e, hp⟩ := hp m
  cases e with
  | none =>
    refine ⟨V, none, fun σ f s => ?_⟩
    simp only [hp, Option.map_none]
    cases regAll f V s <;> rfl
  | some m' =>
    obtain ⟨W, e', hq⟩ := hq m'.1 m'.2
    refine ⟨V ++ W, e', fun σ f s => ?_⟩
    simp only [hp, regAll_append]
    cases regAll f V s with
    | none => rfl
    | some s' => simp [hq]

/-! ### The parts of the search -/

theorem anyKids_wlisted {d : List Byte → Search} (hd : ∀ sub, WListed (d sub)) (n k : Nat) (p : List Byte) :
    KListed fun σ reg st => anyKids (fun sub => d sub σ reg) n k p st := by
  induction k generalizing p with
  | zero =>
    simp only [anyKids]
    cases h1 : getbyte p with
    | none => exact KListed.undefined
    | some x => exact (KListed.done p).poke n x.1
  | succ k ih =>
    simp only [anyKids]
    cases h1 : getbyte p with
    | none => exact KListed.undefined
    | some x =>
      simp only [bind, Option.bind_some]
      refine KListed.poke (q := fun σ reg st => (getserial x.2).bind fun y => (d y.2 σ reg st).bind fun z =>
        if z.1 ≠ 0 then some (z.1, y.2.drop y.1, z.2) else anyKids (fun sub => d sub σ reg) n k (y.2.drop y.1) z.2) ?_ n x.1
      cases h2 : getserial x.2 with
      | none => exact KListed.undefined
      | some y => exact KListed.after (hd y.2) (ih _) _

theorem litKids_wlisted {d : List Byte → Search} (hd : ∀ sub, WListed (d sub)) (ch : Byte) (n k : Nat) (p : List Byte) :
    KListed fun σ reg st => litKids ch (fun sub => d sub σ reg) n k p st := by
  induction k generalizing p with
  | zero => exact KListed.done p
  | succ k ih =>
    simp only [litKids]
    cases h1 : getbyte p with
    | none => exact KListed.undefined
    | some x =>
      simp only [bind, Option.bind_some]
      refine KListed.poke (q := fun σ reg st => (getserial x.2).bind fun y =>
        if x.1 ≠ ch then litKids ch (fun sub => d sub σ reg) n k (y.2.drop y.1) st
        else (d y.2 σ reg st).bind fun z =>
          if z.1 ≠ 0 then some (z.1, y.2.drop y.1, z.2) else litKids ch (fun sub => d sub σ reg) n k (y.2.drop y.1) z.2) ?_ n x.1
      cases h2 : getserial x.2 with
      | none => exact KListed.undefined
      | some y =>
        simp only [Option.bind_some]
        by_cases hc : x.1 ≠ ch
        · simp only [if_pos hc]; exact ih _
        · simp only [if_neg hc]; exact KListed.after (hd y.2) (ih _) _

theorem flexKids_wlisted {d : Byte → List Byte → Search} (hd : ∀ c sub, WListed (d c sub)) (n k : Nat) (p : List Byte) :
    KListed fun σ reg st => flexKids (fun c sub => d c sub σ reg) n k p st := by
  induction k generalizing p with
  | zero => exact KListed.done p
  | succ k ih =>
    simp only [flexKids]
    cases h1 : getbyte p with
    | none => exact KListed.undefined
    | some x =>
      simp only [bind, Option.bind_some]
      refine KListed.poke (q := fun σ reg st => (getserial x.2).bind fun y => (d x.1 y.2 σ reg st).bind fun z =>
        if z.1 ≠ 0 then some (z.1, y.2.drop y.1, z.2) else flexKids (fun c sub => d c sub σ reg) n k (y.2.drop y.1) z.2) ?_ n x.1
      cases h2 : getserial x.2 with
      | none => exact KListed.undefined
      | some y => exact KListed.after (hd x.1 y.2) (ih _) _

theorem wildTree_wlisted {act : List Byte → List Byte → Nat → Search} (ha : ∀ p str n, WListed (act p str n)) (fuel : Nat) (dic str : List Byte) (n : Nat) :
    WListed fun σ reg => wildTree (fun p str n => act p str n σ reg) fuel dic str n := by
  induction fuel generalizing dic str n with
  | zero => exact WListed.undefined
  | succ fuel ih =>
    simp only [wildTree]
    cases h1 : getcount .u8 dic with
    | none => exact WListed.undefined
    | some x =>
      simp only [bind, Option.bind_some]
      have hq : ∀ pos, WListed fun σ reg st => if Counter.hasupper .u8 x.1 then act pos str n σ reg st else some (0, st) := by
        intro pos
        split
        · exact ha _ _ _
        · exact WListed.done
      cases str with
      | nil =>
        simp only
        cases h2 : skipKids (Counter.getlower .u8 x.1) x.2 with
        | none => exact WListed.undefined
        | some p => exact KListed.then (q := fun pos σ reg st => if Counter.hasupper .u8 x.1 then act pos [] n σ reg st else some (0, st)) (KListed.done p) hq
      | cons c rest =>
        simp only
        by_cases c1 : c = 63
        · simp only [if_pos c1]
          exact KListed.then (q := fun pos σ reg st => if Counter.hasupper .u8 x.1 then act pos (c :: rest) n σ reg st else some (0, st))
            (anyKids_wlisted (d := fun sub σ reg => wildTree (fun p str n => act p str n σ reg) fuel sub rest (n + 1)) (fun sub => ih sub rest (n + 1)) n _ x.2) hq
        · simp only [if_neg c1]
          by_cases c2 : c = 42
          · simp only [if_pos c2]
            have hk : WListed fun σ reg st => if rest ≠ [] then wildTree (fun p str n => act p str n σ reg) fuel dic rest n st else some (0, st) := by
              split
              · exact ih _ _ _
              · exact WListed.done
            exact KListed.then (q := fun pos σ reg st => if Counter.hasupper .u8 x.1 then act pos (c :: rest) n σ reg st else some (0, st))
              (KListed.after hk (anyKids_wlisted (d := fun sub σ reg => wildTree (fun p str n => act p str n σ reg) fuel sub (c :: rest) (n + 1)) (fun sub => ih sub (c :: rest) (n + 1)) n _ x.2) x.2) hq
          · simp only [if_neg c2]
            exact KListed.then (q := fun pos σ reg st => if Counter.hasupper .u8 x.1 then act pos (c :: rest) n σ reg st else some (0, st))
              (litKids_wlisted (d := fun sub σ reg => wildTree (fun p str n => act p str n σ reg) fuel sub rest (n + 1)) (fun sub => ih sub rest (n + 1)) c n _ x.2) hq

theorem wildListLoop_wlisted {target : Nat → Nat → List Byte → List Byte → Nat → Search} (ht : ∀ a b c d n, WListed (target a b c d n)) (str : List Byte) (n k : Nat)
    (p : List Byte) : WListed fun σ reg => wildListLoop (fun a b c d n => target a b c d n σ reg) str n k p := by
  induction k generalizing p with
  | zero => exact WListed.done
  | succ k ih =>
    simp only [wildListLoop]
    rcases h1 : readEntry p with _ | ⟨⟨chrmin, chrmax, nlexid, oclass, suf⟩, p'⟩
    · exact WListed.undefined
    · simp only [bind, Option.bind_some]
      cases wildPrune str chrmin chrmax with
      | stop => exact WListed.done
      | skip => exact ih _
      | call _ => exact WListed.seq (ht _ _ _ _ _) (ih _)

theorem wildList_wlisted {target : Nat → Nat → List Byte → List Byte → Nat → Search} (ht : ∀ a b c d n, WListed (target a b c d n)) (p str : List Byte) (n : Nat) :
    WListed fun σ reg => wildList (fun a b c d n => target a b c d n σ reg) p str n := by
  refine WListed.of_eq (p := fun σ reg st => (getserial p).bind fun x => wildListLoop (fun a b c d n => target a b c d n σ reg) str n x.1 x.2 st)
    (fun _ _ _ => rfl) ?_
  cases h1 : getserial p with
  | none => exact WListed.undefined
  | some x => exact wildListLoop_wlisted ht _ _ _ _

theorem wildScan_wlisted {target : Nat → Nat → List Byte → List Byte → Nat → Search} (ht : ∀ a b c d n, WListed (target a b c d n)) (dic str : List Byte) :
    WListed fun σ reg => wildScan (fun a b c d n => target a b c d n σ reg) dic str :=
  wildTree_wlisted (act := fun p str n σ reg => wildList (fun a b c d n => target a b c d n σ reg) p str n) (fun p str n => wildList_wlisted ht p str n) _ _ _ _

theorem scanSuffixAux_wlisted {out : Nat → Gram → Search} (ho : ∀ n g, WListed (out n g)) (fuel : Nat) (inflex suffix : List Byte) (n : Nat) (g : Gram) :
    WListed fun σ reg => scanSuffixAux (fun n g => out n g σ reg) fuel inflex suffix n g := by
  induction fuel generalizing inflex suffix n with
  | zero => exact WListed.undefined
  | succ fuel ih =>
    cases inflex with
    | nil =>
      cases suffix with
      | nil => exact ho n g
      | cons => exact WListed.done
    | cons i is =>
      cases suffix with
      | nil =>
        simp only [scanSuffixAux]
        split
        · exact WListed.seq (ih _ _ _) WListed.done
        · exact WListed.done
      | cons s ss =>
        simp only [scanSuffixAux]
        by_cases h1 : i = s
        · simp only [if_pos h1]
          exact (ih is ss (n + 1)).poke n s
        · simp only [if_neg h1]
          by_cases h2 : i = 42
          · simp only [if_pos h2]
            exact WListed.seq (ih _ _ _) ((ih (i :: is) ss (n + 1)).poke n s)
          · simp only [if_neg h2]
            split
            · exact (ih is ss (n + 1)).poke n s
            · exact WListed.done

theorem scanSuffix_wlisted {out : Nat → Gram → Search} (ho : ∀ n g, WListed (out n g)) (inflex suffix : List Byte) (n : Nat) (g : Gram) :
    WListed fun σ reg => scanSuffix (fun n g => out n g σ reg) inflex suffix n g := scanSuffixAux_wlisted ho _ _ _ _ _

theorem scanStringAux_wlisted {next : List Byte → Nat → Search} (ho : ∀ i n, WListed (next i n)) (fuel : Nat) (inflex stflex : List Byte) (n : Nat) :
    WListed fun σ reg => scanStringAux (fun i n => next i n σ reg) fuel inflex stflex n := by
  induction fuel generalizing inflex stflex n with
  | zero => exact WListed.undefined
  | succ fuel ih =>
    cases stflex with
    | nil => exact ho _ _
    | cons x xs =>
      cases inflex with
      | nil => exact WListed.done
      | cons i is =>
        simp only [scanStringAux]
        refine WListed.poke (q := fun σ reg st => if x = i then scanStringAux (fun i n => next i n σ reg) fuel is xs (n + 1) st
          else if i = 63 then scanStringAux (fun i n => next i n σ reg) fuel is xs (n + 1) st
          else if i = 42 then
            WildRun.seq (scanStringAux (fun i n => next i n σ reg) fuel is (x :: xs) n) (scanStringAux (fun i n => next i n σ reg) fuel (i :: is) xs (n + 1)) st
          else some (0, st)) ?_ n x
        split
        · exact ih _ _ _
        · split
          · exact ih _ _ _
          · split
            · exact WListed.seq (ih _ _ _) (ih _ _ _)
            · exact WListed.done

theorem scanString_wlisted {next : List Byte → Nat → Search} (ho : ∀ i n, WListed (next i n)) (inflex stflex : List Byte) (n : Nat) :
    WListed fun σ reg => scanString (fun i n => next i n σ reg) inflex stflex n := scanStringAux_wlisted ho _ _ _ _

theorem flexOwn_wlisted {out : Nat → Gram → Search} (ho : ∀ n g, WListed (out n g)) (filter : FlexInfo → Bool) (inflex suffix : List Byte) (n k : Nat) (p : List Byte) :
    WListed fun σ reg => flexOwn (fun n g => out n g σ reg) filter inflex suffix n k p := by
  induction k generalizing p with
  | zero => exact WListed.done
  | succ k ih =>
    simp only [flexOwn]
    cases h1 : getword16 p with
    | none => exact WListed.undefined
    | some x =>
      simp only [bind, Option.bind_some]
      cases h2 : getbyte x.2 with
      | none => exact WListed.undefined
      | some y =>
        simp only [Option.bind_some]
        split
        · exact WListed.seq (scanSuffix_wlisted ho _ _ _ _) (ih _)
        · exact ih _

theorem rusFlexAux_wlisted {out : Nat → Gram → Search} (ho : ∀ n g, WListed (out n g)) (filter : FlexInfo → Bool) (suffix : List Byte) (fuel : Nat)
    (dic inflex : List Byte) (n : Nat) (z : Bool) : WListed fun σ reg => rusFlexAux (fun n g => out n g σ reg) filter suffix fuel dic inflex n z := by
  induction fuel generalizing dic inflex n z with
  | zero => exact WListed.undefined
  | succ fuel ih =>
    simp only [rusFlexAux]
    cases h1 : getcount .u8 dic with
    | none => exact WListed.undefined
    | some x =>
      simp only [bind, Option.bind_some]
      have hq : ∀ pos, WListed fun σ reg st => if inflex.isEmpty || !suffix.isEmpty then
          if Counter.hasupper .u8 x.1 then (getserial pos).bind fun y => flexOwn (fun n g => out n g σ reg) filter inflex suffix n y.1 y.2 st
          else some (0, st) else some (0, st) := by
        intro pos
        split
        · split
          · cases getserial pos with
            | none => exact WListed.undefined
            | some y => exact flexOwn_wlisted ho _ _ _ _ _ _
          · exact WListed.done
        · exact WListed.done
      cases inflex with
      | nil =>
        simp only
        cases h2 : skipKids (Counter.getlower .u8 x.1) x.2 with
        | none => exact WListed.undefined
        | some p =>
          exact KListed.then (q := fun pos σ reg st => if ([] : List Byte).isEmpty || !suffix.isEmpty then
            if Counter.hasupper .u8 x.1 then (getserial pos).bind fun y => flexOwn (fun n g => out n g σ reg) filter [] suffix n y.1 y.2 st
            else some (0, st) else some (0, st)) (KListed.done p) hq
      | cons c rest =>
        have hk : WListed fun σ reg st => if c = 42 ∧ z = true then rusFlexAux (fun n g => out n g σ reg) filter suffix fuel dic rest n true st else some (0, st) := by
          split
          · exact ih _ _ _ _
          · exact WListed.done
        have hd : ∀ (ch : Byte) sub, WListed fun σ reg st => (if c = 63 ∨ ch = c then rusFlexAux (fun n g => out n g σ reg) filter suffix fuel sub rest (n + 1) true
            else if c = 42 then
              (rusFlexAux (fun n g => out n g σ reg) filter suffix fuel sub rest (n + 1) true).seq (rusFlexAux (fun n g => out n g σ reg) filter suffix fuel sub (c :: rest) (n + 1) false)
            else fun st => some (0, st)) st := by
          intro ch sub
          split
          · exact ih _ _ _ _
          · split
            · exact WListed.seq (ih _ _ _ _) (ih _ _ _ _)
            · exact WListed.done
        exact KListed.then (q := fun pos σ reg st => if (c :: rest).isEmpty || !suffix.isEmpty then
            if Counter.hasupper .u8 x.1 then (getserial pos).bind fun y => flexOwn (fun n g => out n g σ reg) filter (c :: rest) suffix n y.1 y.2 st
            else some (0, st) else some (0, st))
          (KListed.after hk (flexKids_wlisted (d := fun ch sub σ reg st => (if c = 63 ∨ ch = c then rusFlexAux (fun n g => out n g σ reg) filter suffix fuel sub rest (n + 1) true
            else if c = 42 then
              (rusFlexAux (fun n g => out n g σ reg) filter suffix fuel sub rest (n + 1) true).seq (rusFlexAux (fun n g => out n g σ reg) filter suffix fuel sub (c :: rest) (n + 1) false)
            else fun st => some (0, st)) st) hd n _ x.2) x.2) hq

theorem rusFlex_wlisted {out : Nat → Gram → Search} (ho : ∀ n g, WListed (out n g)) (filter : FlexInfo → Bool) (suffix dic inflex : List Byte) (n : Nat) :
    WListed fun σ reg => rusFlex (fun n g => out n g σ reg) filter suffix dic inflex n := rusFlexAux_wlisted ho _ _ _ _ _ _ _

theorem rusMixLoop_wlisted {swap : Nat → List Byte → Search} (hs : ∀ a b, WListed (swap a b)) (k : Nat) (p : List Byte) :
    WListed fun σ reg => rusMixLoop (fun a b => swap a b σ reg) k p := by
  induction k generalizing p with
  | zero => exact WListed.done
  | succ k ih =>
    simp only [rusMixLoop]
    cases h1 : getbyte p with
    | none => exact WListed.undefined
    | some x =>
      simp only [bind, Option.bind_some]
      split
      · exact WListed.undefined
      · exact WListed.seq (hs _ _) (ih _)

theorem rusWildOut_wlisted (id wdinfo n : Nat) (g : Gram) : WListed fun _ reg => rusWildOut reg id wdinfo n g := fun m => by
  by_cases h : m.length < n
  · exact ⟨[], none, fun σ f s => by simp [rusWildOut, h]⟩
  · refine ⟨[(id, m.take n, ⟨wdinfo, if g.idForm ≠ 0xff then mapWordInfo wdinfo g.grInfo g.bFlags else g.idForm, g.grInfo, g.bFlags⟩)], some m, fun σ f s => ?_⟩
    simp only [rusWildOut, if_neg h, foundReg, regAll, bind]
    rcases f (id, m.take n, ⟨wdinfo, if g.idForm ≠ 0xff then mapWordInfo wdinfo g.grInfo g.bFlags else g.idForm, g.grInfo, g.bFlags⟩) s with _ | s' <;> rfl

theorem rusWildTarget_wlisted (im : RusImages) (id oclass : Nat) (inflex suffix : List Byte) (n : Nat) :
    WListed fun _ reg => rusWildTarget im reg id oclass inflex suffix n := by
  refine WListed.of_eq (p := fun _ reg st => rusWildTarget im reg id oclass inflex suffix n st) (fun _ _ _ => rfl) ?_
  simp only [rusWildTarget]
  cases h1 : loadRus im.classmap oclass with
  | none => exact WListed.undefined
  | some lx =>
    simp only [bind, Option.bind_some]
    cases h2 : lx.flexTable im.flexTree with
    | none =>
      simp only
      split
      · exact rusWildOut_wlisted _ _ _ _
      · exact WListed.done
    | some table =>
      cases h3 : lx.swapTable im.mxTables with
      | none => exact rusFlex_wlisted (out := fun n g _ reg => rusWildOut reg id lx.wdinfo n g) (fun n g => rusWildOut_wlisted _ _ n g) _ _ _ _ _
      | some mixtab =>
        simp only
        cases h4 : getbyte mixtab with
        | none => exact WListed.undefined
        | some x =>
          exact rusMixLoop_wlisted (swap := fun powers mix σ reg => scanString (fun inflex n =>
              rusFlex (rusWildOut reg id lx.wdinfo) (altFilter lx.wdinfo powers) suffix table inflex n) inflex mix n)
            (fun powers mix => scanString_wlisted (next := fun inflex n _ reg => rusFlex (rusWildOut reg id lx.wdinfo) (altFilter lx.wdinfo powers) suffix table inflex n)
              (fun i n => rusFlex_wlisted (out := fun n g _ reg => rusWildOut reg id lx.wdinfo n g) (fun n g => rusWildOut_wlisted _ _ n g) _ _ _ _ _) _ _ _) _ _

/-- The whole search. -/
theorem rusWild_wlisted (im : RusImages) (dic str : List Byte) : WListed fun _ reg => wildScan (rusWildTarget im reg) dic str :=
  wildScan_wlisted (target := fun a b c d n _ reg => rusWildTarget im reg a b c d n) (fun a b c d n => rusWildTarget_wlisted im a b c d n) _ _

end Libmorph
