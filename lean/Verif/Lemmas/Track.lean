import Verif.Lemmas.ScanTree
namespace Libmorph
variable {α σ ρ : Type} (c : Counter) (sv : α → List Byte) (vl : α → Nat) (P : α → Prop)

/-! ### Enumerate and positions -/

theorem Forest.enumKids_eq (f : Forest α) (off : Nat) :
    f.enumKids c vl off = ((f.placed c vl off).map (·.2), off + f.kidsLen c vl) := by
  induction f generalizing off with
  | nil => simp [Forest.enumKids, Forest.placed, Forest.kidsLen]
  | cons ch v sub rest ihs ihr =>
    simp only [Forest.enumKids, Forest.placed, Forest.kidsLen, ihs, ihr, Tree.bufLen]
    cases v with
    | none =>
      simp only [List.map_append, List.map_map, Option.map_none, Option.toList_none, List.map_nil,
        List.append_nil, Nat.add_zero]
      congr 1
      · congr 1
        congr 2; omega
      · omega
    | some x =>
      simp only [List.map_append, List.map_map, Option.map_some, Option.toList_some, List.map_cons, List.map_nil]
      congr 1
      · congr 1
        congr 2; omega
      · omega

theorem Tree.enumerate_eq (t : Tree α) : t.enumerate c vl = (t.placed c vl).map (·.2) := by
  simp only [Tree.enumerate, Tree.placed, Forest.enumKids_eq, List.map_append]
  cases t.val <;> simp

theorem Forest.placed_entries (f : Forest α) (off : Nat) :
    (f.placed c vl off).map (fun p => (p.2.1, p.1)) = f.entries := by
  induction f generalizing off with
  | nil => rfl
  | cons ch v sub rest ihs ihr =>
    simp only [Forest.placed, Forest.entries, List.map_append, List.map_map, ihr]
    rw [← ihs (off + 1 + serialLen (Tree.bufLen c vl { val := v, kids := sub }) + c.bytes)]
    congr 1
    congr 1
    · simp [Function.comp_def]
    · cases v <;> simp

theorem Tree.placed_entries (t : Tree α) : (t.placed c vl).map (fun p => (p.2.1, p.1)) = t.entries := by
  simp only [Tree.placed, Tree.entries, List.map_append, Forest.placed_entries]
  cases t.val <;> simp

theorem Forest.mem_entries_cons_key {f : Forest α} {x : α} {k : List Byte} (h : (x, k) ∈ f.entries) :
    ∃ ch cs, k = ch :: cs ∧ ch ∈ f.chars := by
  induction f with
  | nil => simp [Forest.entries] at h
  | cons ch v sub rest ihs ihr =>
    simp only [Forest.entries, List.mem_append, List.mem_map] at h
    rcases h with (⟨p, hp, he⟩ | h) | h
    · simp only [Prod.mk.injEq] at he
      exact ⟨ch, p.2, he.2.symm, by simp [Forest.chars]⟩
    · cases v with
      | none => simp at h
      | some y => simp at h; exact ⟨ch, [], h.2, by simp [Forest.chars]⟩
    · obtain ⟨a, b, e1, e2⟩ := ihr h
      exact ⟨a, b, e1, by simp [Forest.chars, e2]⟩

/-- The entries are exactly what `find` finds. -/
theorem Forest.mem_entries_iff (f : Forest α) (hd : f.Desc) (x : α) (ch : Byte) (cs : List Byte) :
    (x, ch :: cs) ∈ f.entries ↔ ∃ t, f.child ch = some t ∧ t.find cs = some x := by
  induction f generalizing ch cs with
  | nil => simp [Forest.entries, Forest.child]
  | cons c0 v sub rest ihs ihr =>
    obtain ⟨h1, h2, h3⟩ := hd
    simp only [Forest.entries, List.mem_append, List.mem_map, Forest.child]
    by_cases hc : c0 = ch
    · subst hc
      rw [if_pos rfl]
      have hr : (x, c0 :: cs) ∉ rest.entries := by
        intro h
        obtain ⟨a, b, e1, e2⟩ := Forest.mem_entries_cons_key h
        have := h1 a e2
        simp at e1; omega
      simp only [hr, or_false, Option.some.injEq, exists_eq_left']
      cases cs with
      | nil =>
        have hs : ¬ ∃ a, a ∈ sub.entries ∧ ((a.1, c0 :: a.2) : α × List Byte) = (x, [c0]) := by
          rintro ⟨p, hp, he⟩
          simp only [Prod.mk.injEq, List.cons.injEq, true_and] at he
          obtain ⟨a, b, e1, _⟩ := Forest.mem_entries_cons_key (x := p.1) (k := p.2) (f := sub) hp
          rw [he.2] at e1; simp at e1
        simp only [hs, false_or, Tree.find]
        cases v <;> simp [eq_comm]
      | cons d ds =>
        have hv : (x, c0 :: d :: ds) ∉ (Option.map (fun x => (x, [c0])) v).toList := by
          cases v <;> simp
        simp only [hv, or_false, Tree.find]
        constructor
        · rintro ⟨p, hp, he⟩
          simp only [Prod.mk.injEq, List.cons.injEq, true_and] at he
          have hp' : (x, d :: ds) ∈ sub.entries := by rw [← he.1, ← he.2]; exact hp
          obtain ⟨t, ht, hf⟩ := (ihs h2 d ds).1 hp'
          rw [ht]; exact hf
        · intro h
          cases ht : sub.child d with
          | none => simp [ht] at h
          | some t =>
            simp only [ht] at h
            exact ⟨(x, d :: ds), (ihs h2 d ds).2 ⟨t, ht, h⟩, rfl⟩
    · rw [if_neg hc]
      have h1' : ¬ ∃ a, a ∈ sub.entries ∧ ((a.1, c0 :: a.2) : α × List Byte) = (x, ch :: cs) := by
        rintro ⟨p, hp, he⟩; simp at he; exact hc he.2.1
      have h2' : (x, ch :: cs) ∉ (Option.map (fun x => (x, [c0])) v).toList := by
        cases v with
        | none => simp
        | some y => simp; intro _ e; exact absurd e.symm hc
      simp only [h1', h2', false_or, ihr h3]

theorem Tree.mem_entries_iff (t : Tree α) (hd : t.kids.Desc) (x : α) (k : List Byte) :
    (x, k) ∈ t.entries ↔ t.find k = some x := by
  simp only [Tree.entries, List.mem_append]
  cases k with
  | nil =>
    have : (x, []) ∉ t.kids.entries := by
      intro h; obtain ⟨a, b, e, _⟩ := Forest.mem_entries_cons_key h; simp at e
    simp only [this, false_or, Tree.find]
    cases t.val <;> simp [eq_comm]
  | cons ch cs =>
    have : (x, ch :: cs) ∉ (Option.map (fun x => (x, ([] : List Byte))) t.val).toList := by
      cases t.val <;> simp
    simp only [this, or_false, Forest.mem_entries_iff t.kids hd, Tree.find]
    cases t.kids.child ch <;> simp

theorem Forest.Good.desc {f : Forest α} (h : f.Good c vl) : f.Desc := by
  induction f with
  | nil => trivial
  | cons ch v sub rest ihs ihr => exact ⟨h.2.1, ihs h.2.2.2.2.1, ihr h.2.2.2.2.2⟩

/-! ### GetTrack over the whole tree -/

/-- The recursive call of `GetTrack`. -/
def trackDesc (act : List Byte → List Byte → σ → Option (Option ρ × σ)) (pos : Option Nat)
    (room : Nat) (tr : List Byte) (ch : Byte) (sub : List Byte) (s : σ) : Option (Option ρ × σ) :=
  match room with
  | 0 => none
  | room + 1 => getTrack c act pos room sub (tr ++ [ch]) s

theorem getTrack_ser (act : List Byte → List Byte → σ → Option (Option ρ × σ)) (pos : Option Nat)
    (room : Nat) (t : Tree α) (hg : t.kids.count < c.top) (tl tr : List Byte) (s : σ) :
    getTrack c act pos room (t.ser c sv vl ++ tl) tr s =
      trackKids (trackDesc c act pos room tr)
        (fun dic s => if t.val.isSome then act dic tr s else some (none, s)) pos t.kids.count
        (t.kids.kidsSer c sv vl ++ (optSer sv t.val ++ tl)) s := by
  rw [getTrack]
  simp only [Tree.ser, List.append_assoc, getcount_putcount c _ _ hg, bind, Option.bind,
      hasupper_put c _ _ hg, getlower_put c _ _ hg]
  congr 1

/-- `GetTrack( ..., nullptr )` visits every stored string once, in `entries` order. -/
theorem trackKids_all (act : List Byte → List Byte → σ → Option (Option ρ × σ))
    (actA : α → List Byte → σ → Option (Option ρ × σ))
    (hact : ∀ x, P x → ∀ tl tr s, act (sv x ++ tl) tr s = actA x tr s)
    (hv : ∀ x, P x → (sv x).length = vl x) (fo : Forest α) :
    ∀ (room : Nat) (tr tl : List Byte) (fin : List Byte → σ → Option (Option ρ × σ)) (s : σ),
    fo.All P → fo.Good c vl → fo.depth ≤ room →
    trackKids (trackDesc c act none room tr) fin none fo.count
        (fo.kidsSer c sv vl ++ tl) s
      = match runHits (fun x k => actA x (tr ++ k)) fo.entries s with
        | none => none
        | some (some q, s') => some (some q, s')
        | some (none, s') => fin tl s' := by
  induction fo with
  | nil => intro room tr tl fin s _ _ _; simp [Forest.count, trackKids, Forest.kidsSer, Forest.entries, runHits]
  | cons ch v sub rest ihs ihr =>
    intro room tr tl fin s hP hg hroom
    obtain ⟨tl1, sl, e1, e2, e3⟩ := kidsSer_cons_read c sv vl P hv hP hg tl
    simp only [Forest.depth] at hroom
    obtain ⟨room, rfl⟩ : ∃ r, room = r + 1 := ⟨room - 1, by omega⟩
    simp only [Forest.count, e1, trackKids, getbyte, bind, Option.bind, e2, e3, if_true]
    have hgc : sub.count < c.top := hg.2.2.1
    rw [show trackDesc c act none (room + 1) tr ch = fun sub s => getTrack c act none room sub (tr ++ [ch]) s from rfl]
    simp only
    rw [getTrack_ser c sv vl act none room ⟨v, sub⟩ hgc]
    rw [ihs room (tr ++ [ch]) _ _ s hP.2.1 hg.2.2.2.2.1 (by omega)]
    simp only [Forest.entries]
    rw [runHits_append, runHits_append]
    have hmap : runHits (fun x k => actA x (tr ++ k)) (sub.entries.map fun p => (p.1, ch :: p.2)) s
        = runHits (fun x k => actA x (tr ++ [ch] ++ k)) sub.entries s := by
      generalize sub.entries = l
      induction l generalizing s with
      | nil => rfl
      | cons p l ih =>
        obtain ⟨x, k⟩ := p
        simp only [List.map_cons, runHits, List.append_assoc, List.singleton_append]
        cases actA x (tr ++ ch :: k) s with
        | none => rfl
        | some y =>
          obtain ⟨q, s'⟩ := y
          cases q with
          | some q => rfl
          | none => simpa [List.append_assoc] using ih s'
    rw [hmap]
    cases runHits (fun x k => actA x (tr ++ [ch] ++ k)) sub.entries s with
    | none => rfl
    | some y =>
      obtain ⟨q, s'⟩ := y
      cases q with
      | some q => rfl
      | none =>
        simp only
        have hrest := fun s => ihr (room + 1) tr tl fin s hP.2.2 hg.2.2.2.2.2 (by omega)
        cases v with
        | none =>
          simp only [Option.isSome_none, Bool.false_eq_true, if_false, Option.map_none, Option.toList_none, runHits]
          rw [hrest]
        | some x =>
          simp only [Option.isSome_some, if_true, Option.map_some, Option.toList_some, runHits, optSer]
          rw [hact x (hP.1 x rfl)]
          cases actA x (tr ++ [ch]) s' with
          | none => rfl
          | some z =>
            obtain ⟨q, s''⟩ := z
            cases q with
            | some q => rfl
            | none => simp only; rw [hrest]

theorem getTrack_all (act : List Byte → List Byte → σ → Option (Option ρ × σ))
    (actA : α → List Byte → σ → Option (Option ρ × σ))
    (hact : ∀ x, P x → ∀ tl tr s, act (sv x ++ tl) tr s = actA x tr s)
    (hv : ∀ x, P x → (sv x).length = vl x) (t : Tree α)
    (room : Nat) (tr tl : List Byte) (s : σ) (hP : t.All P) (hg : t.Good c vl) (hr : t.kids.depth ≤ room) :
    getTrack c act none room (t.ser c sv vl ++ tl) tr s
      = runHits (fun x k => actA x (tr ++ k)) t.entries s := by
  rw [getTrack_ser c sv vl act none room t hg.1]
  rw [trackKids_all c sv vl P act actA hact hv t.kids room tr _ _ s hP.2 hg.2 hr]
  simp only [Tree.entries]
  rw [runHits_append]
  cases runHits (fun x k => actA x (tr ++ k)) t.kids.entries s with
  | none => rfl
  | some y =>
    obtain ⟨q, s'⟩ := y
    cases q with
    | some q => rfl
    | none =>
      simp only
      cases hvv : t.val with
      | none => simp [runHits]
      | some x =>
        simp only [Option.isSome_some, if_true, Option.map_some, Option.toList_some, runHits, optSer]
        rw [hact x (hP.1 x hvv)]
        simp only [List.append_nil]
        cases actA x tr s' with
        | none => rfl
        | some z => obtain ⟨q, s''⟩ := z; cases q <;> rfl

/-! ### GetTrack to a position -/

/-- No child is selected when the position lies behind all of them or before all of them. -/
theorem trackKids_skip (desc : Byte → List Byte → σ → Option (Option ρ × σ))
    (fin : List Byte → σ → Option (Option ρ × σ)) (hv : ∀ x, P x → (sv x).length = vl x)
    (r : Nat) (tl : List Byte) (fo : Forest α) (hP : fo.All P) (hg : fo.Good c vl) (s : σ)
    (h : r < tl.length ∨ (fo.kidsSer c sv vl ++ tl).length ≤ r) :
    trackKids desc fin (some r) fo.count (fo.kidsSer c sv vl ++ tl) s = fin tl s := by
  induction fo with
  | nil => simp [Forest.count, trackKids, Forest.kidsSer]
  | cons ch v sub rest _ ihr =>
    obtain ⟨tl1, sl, e1, e2, e3⟩ := kidsSer_cons_read c sv vl P hv hP hg tl
    have hsel : ¬ (r ≤ ((Tree.mk v sub).ser c sv vl ++ (rest.kidsSer c sv vl ++ tl)).length ∧
        (rest.kidsSer c sv vl ++ tl).length ≤ r) := by
      rintro ⟨h1, h2⟩
      rcases h with h | h
      · simp only [List.length_append] at h2; omega
      · simp only [Forest.kidsSer, List.length_append, List.length_singleton, Tree.ser] at h h1
        have := putserial_len ((Tree.mk v sub).bufLen c vl)
        omega
    simp only [Forest.count, e1, trackKids, getbyte, bind, Option.bind, e2, e3]
    simp only [hsel, decide_false, Bool.false_eq_true, if_false]
    apply ihr hP.2.2 hg.2.2.2.2.2
    rcases h with h | h
    · exact Or.inl h
    · right
      simp only [Forest.kidsSer, List.length_append] at h ⊢
      omega

theorem Tree.ser_length' (hv : ∀ x, P x → (sv x).length = vl x) {v : Option α} {sub : Forest α}
    (h1 : ∀ x, v = some x → P x) (h2 : sub.All P) :
    ((Tree.mk v sub).ser c sv vl).length = (Tree.mk v sub).bufLen c vl :=
  Tree.ser_length c sv vl ⟨v, sub⟩ P hv ⟨h1, h2⟩

/-- Positions of placed values lie inside the image of the forest. -/
theorem Forest.placed_bounds (fo : Forest α) (off : Nat) (k : List Byte) (x : α) (o : Nat)
    (h : (k, x, o) ∈ fo.placed c vl off) :
    off + 1 + c.bytes < o ∧ o + vl x ≤ off + fo.kidsLen c vl := by
  induction fo generalizing off k with
  | nil => simp [Forest.placed] at h
  | cons ch v sub rest ihs ihr =>
    have hpos : ∀ n, 1 ≤ serialLen n := by
      intro n; unfold serialLen; split <;> omega
    have hp := hpos ((Tree.mk v sub).bufLen c vl)
    simp only [Forest.placed, List.mem_append, List.mem_map, Forest.kidsLen] at h ⊢
    simp only [Tree.bufLen] at h hp
    rcases h with (⟨p, hp', he⟩ | h) | h
    · obtain ⟨k', x', o'⟩ := p
      simp only [Prod.mk.injEq] at he
      obtain ⟨_, rfl, rfl⟩ := he
      have := ihs _ _ hp'
      omega
    · cases v with
      | none => simp at h
      | some y =>
        simp only [Option.map_some, Option.toList_some, List.mem_singleton, Prod.mk.injEq] at h
        obtain ⟨_, rfl, rfl⟩ := h
        simp only at hp ⊢
        omega
    · have := ihr _ _ h
      omega


/-- Nothing happens behind a selected child. -/
theorem trackCont (y z : Option (Option ρ × σ)) (k : σ → Option (Option ρ × σ))
    (h : y = z) (hk : ∀ s', k s' = some (none, s')) :
    (y.bind fun a => match a.1 with
        | some r => (pure (some r, a.2) : Option (Option ρ × σ))
        | none => k a.2) = z := by
  subst h
  cases y with
  | none => rfl
  | some a =>
    obtain ⟨q, s'⟩ := a
    cases q with
    | some q => rfl
    | none => exact hk s'

theorem trackKids_pos (act : List Byte → List Byte → σ → Option (Option ρ × σ))
    (hv : ∀ x, P x → (sv x).length = vl x) (r : Nat)
    (hact : ∀ y, P y → ∀ tl tr s, ¬ (tl.length < r ∧ r < (sv y ++ tl).length) →
      act (sv y ++ tl) tr s = some (none, s))
    (fo : Forest α) :
    ∀ (off pos : Nat) (k : List Byte) (x : α) (o room : Nat) (tr tl : List Byte)
      (fin : List Byte → σ → Option (Option ρ × σ)) (s : σ),
    fo.All P → fo.Good c vl → (k, x, o) ∈ fo.placed c vl off → o < pos → pos < o + vl x →
    r + (pos - off) = (fo.kidsSer c sv vl ++ tl).length → (∀ s, fin tl s = some (none, s)) →
    k.length ≤ room →
    trackKids (trackDesc c act (some r) room tr) fin (some r) fo.count (fo.kidsSer c sv vl ++ tl) s
      = act ((fo.kidsSer c sv vl ++ tl).drop (o - off)) (tr ++ k) s := by
  induction fo with
  | nil => intro off pos k x o room tr tl fin s _ _ h; simp [Forest.placed] at h
  | cons ch v sub rest ihs ihr =>
    intro off pos k x o room tr tl fin s hP hg h hp1 hp2 hr hfin hroom
    obtain ⟨tl1, sl, e1, e2, e3⟩ := kidsSer_cons_read c sv vl P hv hP hg tl
    have hb := Forest.placed_bounds c vl _ off k x o h
    have hsl := putserial_len ((Tree.mk v sub).bufLen c vl)
    have hser := Tree.ser_length c sv vl ⟨v, sub⟩ P hv ⟨hP.1, hP.2.1⟩
    have hkl := Forest.kidsSer_length c sv vl sub P hv hP.2.1
    have hkr := Forest.kidsSer_length c sv vl rest P hv hP.2.2
    have hcl := putcount_length c sub.count v.isSome
    have hgc : sub.count < c.top := hg.2.2.1
    -- the image of the forest, split at the start of the value part of the child
    have hsplit : (Forest.cons ch v sub rest).kidsSer c sv vl ++ tl
        = ([ch % 256] ++ putserial ((Tree.mk v sub).bufLen c vl) ++ putcount c sub.count v.isSome)
          ++ (sub.kidsSer c sv vl ++ (optSer sv v ++ (rest.kidsSer c sv vl ++ tl))) := by
      simp [Forest.kidsSer]
    have hsplit2 : (Forest.cons ch v sub rest).kidsSer c sv vl ++ tl
        = ([ch % 256] ++ putserial ((Tree.mk v sub).bufLen c vl) ++ (Tree.mk v sub).ser c sv vl)
          ++ (rest.kidsSer c sv vl ++ tl) := by
      simp [Forest.kidsSer, Tree.ser]
    have hlen := congrArg List.length hsplit2
    have hpre : ([ch % 256] ++ putserial ((Tree.mk v sub).bufLen c vl) ++ putcount c sub.count v.isSome).length
        = 1 + serialLen ((Tree.mk v sub).bufLen c vl) + c.bytes := by
      simp only [List.length_append, List.length_singleton, hsl, hcl]
    have hpre2 : ([ch % 256] ++ putserial ((Tree.mk v sub).bufLen c vl) ++ (Tree.mk v sub).ser c sv vl).length
        = 1 + serialLen ((Tree.mk v sub).bufLen c vl) + (Tree.mk v sub).bufLen c vl := by
      simp only [List.length_append, List.length_singleton, hsl, hser]
    have hlenS : ((Forest.cons ch v sub rest).kidsSer c sv vl ++ tl).length
        = 1 + serialLen ((Tree.mk v sub).bufLen c vl) + (Tree.mk v sub).bufLen c vl
          + (rest.kidsSer c sv vl ++ tl).length := by
      rw [hlen, List.length_append, hpre2]
    have hbuf : (Tree.mk v sub).bufLen c vl = c.bytes + sub.kidsLen c vl + (optSer sv v).length := by
      rw [← hser]; simp only [Tree.ser, List.length_append, hcl, hkl]
    -- continuing behind the selected child
    have hrestSkip : (rest.kidsSer c sv vl ++ tl).length ≤ r → ∀ s',
        trackKids (trackDesc c act (some r) room tr) fin (some r) rest.count (rest.kidsSer c sv vl ++ tl) s'
          = some (none, s') := by
      intro hle s'
      rw [trackKids_skip c sv vl P _ fin hv r tl rest hP.2.2 hg.2.2.2.2.2 s' (Or.inr hle), hfin]
    simp only [Forest.count]
    simp only [Forest.placed, List.mem_append, List.mem_map] at h
    rcases h with (⟨p, hp', he⟩ | h) | h
    · -- inside the subtree
      obtain ⟨k', x', o'⟩ := p
      simp only [Prod.mk.injEq] at he
      obtain ⟨rfl, rfl, rfl⟩ := he
      have hb' := Forest.placed_bounds c vl _ _ _ _ _ hp'
      obtain ⟨room, rfl⟩ : ∃ q, room = q + 1 := ⟨room - 1, by simp at hroom; omega⟩
      have hle : (rest.kidsSer c sv vl ++ tl).length ≤ r := by omega
      have hsel : r ≤ ((Tree.mk v sub).ser c sv vl ++ (rest.kidsSer c sv vl ++ tl)).length ∧
          (rest.kidsSer c sv vl ++ tl).length ≤ r := by
        refine ⟨?_, hle⟩
        rw [List.length_append, hser]; omega
      have hdrop : ((Forest.cons ch v sub rest).kidsSer c sv vl ++ tl).drop (o' - off)
          = (sub.kidsSer c sv vl ++ (optSer sv v ++ (rest.kidsSer c sv vl ++ tl))).drop
              (o' - (off + 1 + serialLen ((Tree.mk v sub).bufLen c vl) + c.bytes)) := by
        rw [hsplit, List.drop_append, hpre, List.drop_eq_nil_of_le (by rw [hpre]; omega), List.nil_append]
        congr 1; omega
      rw [hdrop, e1]
      simp only [trackKids, getbyte, Option.bind_eq_bind, Option.bind_some, e2, e3, hsel, and_self, decide_true, if_true]
      refine trackCont _ _ _ ?_ (hrestSkip hle)
      rw [show trackDesc c act (some r) (room + 1) tr ch
        ((Tree.mk v sub).ser c sv vl ++ (rest.kidsSer c sv vl ++ tl)) s
        = getTrack c act (some r) room ((Tree.mk v sub).ser c sv vl ++ (rest.kidsSer c sv vl ++ tl)) (tr ++ [ch]) s from rfl]
      rw [getTrack_ser c sv vl act (some r) room ⟨v, sub⟩ hgc]
      rw [ihs (off + 1 + serialLen ((Tree.mk v sub).bufLen c vl) + c.bytes) pos k' x' o' room (tr ++ [ch])
        (optSer sv v ++ (rest.kidsSer c sv vl ++ tl)) _ s hP.2.1 hg.2.2.2.2.1 hp' hp1 hp2
        (by simp only [List.length_append, hkl] at *; omega) ?_ (by simp at hroom; omega)]
      · simp
      · intro s'
        cases v with
        | none => simp
        | some y =>
          simp only [Option.isSome_some, if_true, optSer]
          apply hact y (hP.1 y rfl)
          rintro ⟨q1, q2⟩
          simp only [List.length_append, hkl, optSer] at *
          omega
    · -- the value of the child itself
      cases v with
      | none => simp at h
      | some y =>
        simp only [Option.map_some, Option.toList_some, List.mem_singleton, Prod.mk.injEq] at h
        obtain ⟨rfl, rfl, rfl⟩ := h
        have hvx := hv x (hP.1 x rfl)
        simp only [optSer] at hbuf
        obtain ⟨room, rfl⟩ : ∃ q, room = q + 1 := ⟨room - 1, by simp at hroom; omega⟩
        have hle : (rest.kidsSer c sv vl ++ tl).length ≤ r := by omega
        have hsel : r ≤ ((Tree.mk (some x) sub).ser c sv vl ++ (rest.kidsSer c sv vl ++ tl)).length ∧
            (rest.kidsSer c sv vl ++ tl).length ≤ r := by
          refine ⟨?_, hle⟩
          rw [List.length_append, hser]; omega
        have hdrop : ((Forest.cons ch (some x) sub rest).kidsSer c sv vl ++ tl).drop
              (off + 1 + serialLen ((Tree.mk (some x) sub).bufLen c vl) + c.bytes + sub.kidsLen c vl - off)
            = optSer sv (some x) ++ (rest.kidsSer c sv vl ++ tl) := by
          rw [hsplit, List.drop_append, hpre, List.drop_eq_nil_of_le (by rw [hpre]; omega), List.nil_append,
            List.drop_append, List.drop_eq_nil_of_le (by rw [hkl]; omega), List.nil_append, hkl]
          rw [show off + 1 + serialLen ((Tree.mk (some x) sub).bufLen c vl) + c.bytes + sub.kidsLen c vl - off
            - (1 + serialLen ((Tree.mk (some x) sub).bufLen c vl) + c.bytes) - sub.kidsLen c vl = 0 by omega]
          rfl
        rw [hdrop, e1]
        simp only [trackKids, getbyte, Option.bind_eq_bind, Option.bind_some, e2, e3, hsel, and_self, decide_true, if_true]
        refine trackCont _ _ _ ?_ (hrestSkip hle)
        rw [show trackDesc c act (some r) (room + 1) tr ch
          ((Tree.mk (some x) sub).ser c sv vl ++ (rest.kidsSer c sv vl ++ tl)) s
          = getTrack c act (some r) room ((Tree.mk (some x) sub).ser c sv vl ++ (rest.kidsSer c sv vl ++ tl)) (tr ++ [ch]) s from rfl]
        rw [getTrack_ser c sv vl act (some r) room ⟨some x, sub⟩ hgc]
        rw [trackKids_skip c sv vl P _ _ hv r _ sub hP.2.1 hg.2.2.2.2.1 s (Or.inl ?_)]
        · simp
        · simp only [optSer, List.length_append] at *; omega
    · -- behind this child
      have hb' := Forest.placed_bounds c vl _ _ _ _ _ h
      have hr' : r < (rest.kidsSer c sv vl ++ tl).length := by omega
      have hsel : ¬ (r ≤ ((Tree.mk v sub).ser c sv vl ++ (rest.kidsSer c sv vl ++ tl)).length ∧
          (rest.kidsSer c sv vl ++ tl).length ≤ r) := by omega
      have hdrop : ((Forest.cons ch v sub rest).kidsSer c sv vl ++ tl).drop (o - off)
          = (rest.kidsSer c sv vl ++ tl).drop (o - (off + 1 + serialLen ((Tree.mk v sub).bufLen c vl)
              + (Tree.mk v sub).bufLen c vl)) := by
        rw [hsplit2, List.drop_append, hpre2, List.drop_eq_nil_of_le (by rw [hpre2]; omega), List.nil_append]
        congr 1; omega
      rw [hdrop, e1]
      simp only [trackKids, getbyte, bind, Option.bind, e2, e3]
      simp only [hsel, decide_false, Bool.false_eq_true, if_false]
      exact ihr _ pos k x o room tr tl fin s hP.2.2 hg.2.2.2.2.2 h hp1 hp2 (by omega) hfin hroom


/-- The value placed at `o` really is the image at `o`. -/
theorem Forest.placed_drop (hv : ∀ x, P x → (sv x).length = vl x) (fo : Forest α) (hP : fo.All P) :
    ∀ (off : Nat) (k : List Byte) (x : α) (o : Nat), (k, x, o) ∈ fo.placed c vl off → ∀ tl,
      ∃ tl', (fo.kidsSer c sv vl ++ tl).drop (o - off) = sv x ++ tl' := by
  induction fo with
  | nil => intro off k x o h; simp [Forest.placed] at h
  | cons ch v sub rest ihs ihr =>
    intro off k x o h tl
    have hsl := putserial_len ((Tree.mk v sub).bufLen c vl)
    have hser := Tree.ser_length c sv vl ⟨v, sub⟩ P hv ⟨hP.1, hP.2.1⟩
    have hkl := Forest.kidsSer_length c sv vl sub P hv hP.2.1
    have hcl := putcount_length c sub.count v.isSome
    have hsplit : (Forest.cons ch v sub rest).kidsSer c sv vl ++ tl
        = ([ch % 256] ++ putserial ((Tree.mk v sub).bufLen c vl) ++ putcount c sub.count v.isSome)
          ++ (sub.kidsSer c sv vl ++ (optSer sv v ++ (rest.kidsSer c sv vl ++ tl))) := by
      simp [Forest.kidsSer]
    have hsplit2 : (Forest.cons ch v sub rest).kidsSer c sv vl ++ tl
        = ([ch % 256] ++ putserial ((Tree.mk v sub).bufLen c vl) ++ (Tree.mk v sub).ser c sv vl)
          ++ (rest.kidsSer c sv vl ++ tl) := by
      simp [Forest.kidsSer, Tree.ser]
    have hpre : ([ch % 256] ++ putserial ((Tree.mk v sub).bufLen c vl) ++ putcount c sub.count v.isSome).length
        = 1 + serialLen ((Tree.mk v sub).bufLen c vl) + c.bytes := by
      simp only [List.length_append, List.length_singleton, hsl, hcl]
    have hpre2 : ([ch % 256] ++ putserial ((Tree.mk v sub).bufLen c vl) ++ (Tree.mk v sub).ser c sv vl).length
        = 1 + serialLen ((Tree.mk v sub).bufLen c vl) + (Tree.mk v sub).bufLen c vl := by
      simp only [List.length_append, List.length_singleton, hsl, hser]
    simp only [Forest.placed, List.mem_append, List.mem_map] at h
    rcases h with (⟨p, hp', he⟩ | h) | h
    · obtain ⟨k', x', o'⟩ := p
      simp only [Prod.mk.injEq] at he
      obtain ⟨rfl, rfl, rfl⟩ := he
      have hb' := Forest.placed_bounds c vl _ _ _ _ _ hp'
      obtain ⟨tl', h'⟩ := ihs hP.2.1 _ _ _ _ hp' (optSer sv v ++ (rest.kidsSer c sv vl ++ tl))
      refine ⟨tl', ?_⟩
      rw [hsplit, List.drop_append, hpre, List.drop_eq_nil_of_le (by rw [hpre]; omega), List.nil_append, ← h']
      congr 1; omega
    · cases v with
      | none => simp at h
      | some y =>
        simp only [Option.map_some, Option.toList_some, List.mem_singleton, Prod.mk.injEq] at h
        obtain ⟨rfl, rfl, rfl⟩ := h
        refine ⟨rest.kidsSer c sv vl ++ tl, ?_⟩
        rw [hsplit, List.drop_append, hpre, List.drop_eq_nil_of_le (by rw [hpre]; omega), List.nil_append,
            List.drop_append, List.drop_eq_nil_of_le (by rw [hkl]; omega), List.nil_append, hkl]
        rw [show off + 1 + serialLen ((Tree.mk (some x) sub).bufLen c vl) + c.bytes + sub.kidsLen c vl - off
            - (1 + serialLen ((Tree.mk (some x) sub).bufLen c vl) + c.bytes) - sub.kidsLen c vl = 0 by omega]
        rfl
    · have hb' := Forest.placed_bounds c vl _ _ _ _ _ h
      obtain ⟨tl', h'⟩ := ihr hP.2.2 _ _ _ _ h tl
      refine ⟨tl', ?_⟩
      rw [hsplit2, List.drop_append, hpre2, List.drop_eq_nil_of_le (by rw [hpre2]; omega), List.nil_append, ← h']
      congr 1; omega

theorem Tree.placed_drop (hv : ∀ x, P x → (sv x).length = vl x) (t : Tree α) (hP : t.All P)
    (k : List Byte) (x : α) (o : Nat) (h : (k, x, o) ∈ t.placed c vl) (tl : List Byte) :
      ∃ tl', (t.ser c sv vl ++ tl).drop o = sv x ++ tl' := by
  have hkl := Forest.kidsSer_length c sv vl t.kids P hv hP.2
  have hcl := putcount_length c t.kids.count t.val.isSome
  simp only [Tree.placed, List.mem_append, Nat.zero_add] at h
  rcases h with h | h
  · obtain ⟨tl', h'⟩ := Forest.placed_drop c sv vl P hv t.kids hP.2 _ _ _ _ h (optSer sv t.val ++ tl)
    have hb' := Forest.placed_bounds c vl _ _ _ _ _ h
    refine ⟨tl', ?_⟩
    simp only [Tree.ser, List.append_assoc]
    rw [List.drop_append, List.drop_eq_nil_of_le (by rw [hcl]; omega), List.nil_append, hcl, h']
  · cases hval : t.val with
    | none => simp [hval] at h
    | some y =>
      simp only [hval, Option.map_some, Option.toList_some, List.mem_singleton, Prod.mk.injEq] at h
      obtain ⟨rfl, rfl, rfl⟩ := h
      refine ⟨tl, ?_⟩
      simp only [hval] at hcl
      simp only [Tree.ser, List.append_assoc, hval]
      rw [List.drop_append, List.drop_eq_nil_of_le (by rw [hcl]; omega), List.nil_append, hcl,
        List.drop_append, List.drop_eq_nil_of_le (by rw [hkl]; omega), List.nil_append, hkl]
      rw [show c.bytes + t.kids.kidsLen c vl - c.bytes - t.kids.kidsLen c vl = 0 by omega]
      rfl

/-- `GetTrack` to a position strictly inside a stored value `x` (all images around) calls the
functor exactly once with a non-zero effect: at the start of that value, with the string under
which it is stored. -/
theorem getTrack_pos (act : List Byte → List Byte → σ → Option (Option ρ × σ))
    (hv : ∀ x, P x → (sv x).length = vl x) (r : Nat)
    (hact : ∀ y, P y → ∀ tl tr s, ¬ (tl.length < r ∧ r < (sv y ++ tl).length) →
      act (sv y ++ tl) tr s = some (none, s))
    (t : Tree α) (pos : Nat) (k : List Byte) (x : α) (o room : Nat) (tr tl : List Byte) (s : σ)
    (hP : t.All P) (hg : t.Good c vl) (h : (k, x, o) ∈ t.placed c vl) (hp1 : o < pos)
    (hp2 : pos < o + vl x) (hr : r + pos = (t.ser c sv vl ++ tl).length) (hroom : k.length ≤ room) :
    getTrack c act (some r) room (t.ser c sv vl ++ tl) tr s
      = act ((t.ser c sv vl ++ tl).drop o) (tr ++ k) s := by
  have hkl := Forest.kidsSer_length c sv vl t.kids P hv hP.2
  have hcl := putcount_length c t.kids.count t.val.isSome
  rw [getTrack_ser c sv vl act (some r) room t hg.1]
  simp only [Tree.placed, List.mem_append, Nat.zero_add] at h
  have hlen : (t.ser c sv vl ++ tl).length
      = c.bytes + (t.kids.kidsLen c vl + ((optSer sv t.val).length + tl.length)) := by
    simp only [Tree.ser, List.length_append, hcl, hkl]; omega
  rcases h with h | h
  · have hb' := Forest.placed_bounds c vl _ _ _ _ _ h
    rw [trackKids_pos c sv vl P act hv r hact t.kids c.bytes pos k x o room tr (optSer sv t.val ++ tl) _ s
      hP.2 hg.2 h hp1 hp2 (by simp only [List.length_append, hkl]; omega) ?_ hroom]
    · congr 1
      simp only [Tree.ser, List.append_assoc]
      rw [List.drop_append (l₁ := putcount _ _ _), List.drop_eq_nil_of_le (as := putcount _ _ _) (i := o) (by rw [hcl]; omega), List.nil_append, hcl]
    · intro s'
      cases hval : t.val with
      | none => simp
      | some y =>
        simp only [Option.isSome_some, if_true, optSer]
        apply hact y (hP.1 y hval)
        rintro ⟨q1, q2⟩
        simp only [hval, optSer, List.length_append] at *
        omega
  · cases hval : t.val with
    | none => simp [hval] at h
    | some y =>
      simp only [hval, Option.map_some, Option.toList_some, List.mem_singleton, Prod.mk.injEq] at h
      obtain ⟨rfl, rfl, rfl⟩ := h
      have hvx := hv x (hP.1 x hval)
      rw [trackKids_skip c sv vl P _ _ hv r _ t.kids hP.2 hg.2 s (Or.inl ?_)]
      · simp only [Option.isSome_some, if_true, List.append_nil]
        congr 1
        simp only [hval] at hcl
        simp only [Tree.ser, List.append_assoc, hval]
        rw [List.drop_append, List.drop_eq_nil_of_le (by rw [hcl]; omega), List.nil_append, hcl,
          List.drop_append, List.drop_eq_nil_of_le (by rw [hkl]; omega), List.nil_append, hkl]
        rw [show c.bytes + t.kids.kidsLen c vl - c.bytes - t.kids.kidsLen c vl = 0 by omega]
        rfl
      · simp only [hval, optSer, List.length_append] at hlen hr ⊢; omega

end Libmorph
