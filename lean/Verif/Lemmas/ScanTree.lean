import Verif.Model.ScanTree
import Verif.Lemmas.WordTree
namespace Libmorph
variable {α σ ρ : Type}

/-! ### Counters -/

theorem getcount_putcount (c : Counter) (n : Nat) (b : Bool) (h : n < c.top) (tl : List Byte) :
    getcount c (putcount c n b ++ tl) = some (n + (if b then c.top else 0), tl) := by
  cases c with
  | u8 =>
    simp only [Counter.top] at h ⊢
    have e : n ||| (if b then 0x80 else 0) = n + (if b then 0x80 else 0) := by
      cases b
      · simp
      · have := or_shift_eq_add (acc := n) (m := 1) (k := 7) (by omega)
        simpa using this
    simp only [putcount, Counter.top, e, List.cons_append, List.nil_append, getcount, getbyte]
    congr 2
    split <;> omega
  | u16 =>
    simp only [Counter.top] at h ⊢
    have e : n ||| (if b then 0x8000 else 0) = n + (if b then 0x8000 else 0) := by
      cases b
      · simp
      · have := or_shift_eq_add (acc := n) (m := 1) (k := 15) (by omega)
        simpa using this
    have h2 : (n + if b then 0x8000 else 0) < 2 ^ 16 := by split <;> omega
    have := getword16_putword16 h2 tl
    simpa [putcount, Counter.top, e, getcount, putword16] using this

theorem getlower_put (c : Counter) (n : Nat) (b : Bool) (h : n < c.top) :
    c.getlower (n + (if b then c.top else 0)) = n := by
  cases c <;> cases b <;> simp_all [Counter.getlower, Counter.top] <;> omega

theorem hasupper_put (c : Counter) (n : Nat) (b : Bool) (h : n < c.top) :
    c.hasupper (n + (if b then c.top else 0)) = b := by
  have key : ∀ k, n < 2 ^ k → (n + (if b then 2 ^ k else 0)) &&& 2 ^ k = if b then 2 ^ k else 0 := by
    intro k hk
    rw [and_two_pow_if]
    cases b
    · simp [Nat.testBit_lt_two_pow hk]
    · simp only [if_true]
      rw [Nat.add_comm, Nat.testBit_two_pow_add_eq]
      simp [Nat.testBit_lt_two_pow hk]
  cases c with
  | u8 =>
    have := key 7 h
    simp only [Counter.hasupper, Counter.top] at *
    rw [show (2:Nat)^7 = 128 from rfl] at this
    rw [this]; cases b <;> rfl
  | u16 =>
    have := key 15 h
    simp only [Counter.hasupper, Counter.top] at *
    rw [show (2:Nat)^15 = 32768 from rfl] at this
    rw [this]; cases b <;> rfl

/-! ### Well-formed compiled trees -/

/-- What the compiler guarantees about a finished forest: ordered siblings, byte characters, child
counts within the counter, subtree lengths within 32 bits. -/
def Forest.Good (c : Counter) (vl : α → Nat) : Forest α → Prop
  | .nil => True
  | .cons ch v sub rest =>
    ch < 256 ∧ (∀ x ∈ rest.chars, x < ch) ∧ sub.count < c.top ∧
    (Tree.mk v sub).bufLen c vl < 2 ^ 32 ∧ sub.Good c vl ∧ rest.Good c vl

/-- The same for a whole tree. -/
def Tree.Good (c : Counter) (vl : α → Nat) (t : Tree α) : Prop :=
  t.kids.count < c.top ∧ t.kids.Good c vl

theorem Forest.child_good {c : Counter} {vl : α → Nat} {x : Byte} {f : Forest α} {t : Tree α}
    (hg : f.Good c vl) (h : f.child x = some t) : t.Good c vl ∧ t.bufLen c vl < 2 ^ 32 := by
  induction f with
  | nil => simp [Forest.child] at h
  | cons ch v sub rest _ ihr =>
    obtain ⟨_, _, h2, h3, h4, h5⟩ := hg
    simp only [Forest.child] at h
    split at h
    · simp at h; subst h; exact ⟨⟨h2, h4⟩, h3⟩
    · exact ihr h5 h

theorem Forest.child_all {P : α → Prop} {x : Byte} {f : Forest α} {t : Tree α}
    (hg : f.All P) (h : f.child x = some t) : t.All P := by
  induction f with
  | nil => simp [Forest.child] at h
  | cons ch v sub rest _ ihr =>
    obtain ⟨h1, h2, h3⟩ := hg
    simp only [Forest.child] at h
    split at h
    · simp at h; subst h; exact ⟨h1, h2⟩
    · exact ihr h3 h

theorem Forest.child_allCh {Q : Byte → Prop} {x : Byte} {f : Forest α} {t : Tree α}
    (hg : f.AllCh Q) (h : f.child x = some t) : t.kids.AllCh Q ∧ Q x := by
  induction f with
  | nil => simp [Forest.child] at h
  | cons ch v sub rest _ ihr =>
    obtain ⟨h1, h2, h3⟩ := hg
    simp only [Forest.child] at h
    split at h
    · rename_i he; subst he; simp at h; subst h; exact ⟨h2, h1⟩
    · exact ihr h3 h

/-! ### One level -/

/-- The step on the value of the node itself. -/
def valueStep (actA : α → Frag → σ → Option (Option ρ × σ)) (v : Option α) (f : Frag) (s : σ) :
    Option (Option ρ × σ) :=
  match v with
  | none => some (none, s)
  | some x => actA x f s

variable (c : Counter) (sv : α → List Byte) (vl : α → Nat) (P : α → Prop)

theorem kidsSer_cons_read (hv : ∀ x, P x → (sv x).length = vl x)
    {ch : Byte} {v : Option α} {sub rest : Forest α} (hP : (Forest.cons ch v sub rest).All P)
    (hg : (Forest.cons ch v sub rest).Good c vl) (tl : List Byte) :
    ∃ tl1 sl, (Forest.cons ch v sub rest).kidsSer c sv vl ++ tl = ch :: tl1 ∧
      getserial tl1 = some (sl, (Tree.mk v sub).ser c sv vl ++ (rest.kidsSer c sv vl ++ tl)) ∧
      ((Tree.mk v sub).ser c sv vl ++ (rest.kidsSer c sv vl ++ tl)).drop sl
        = rest.kidsSer c sv vl ++ tl := by
  obtain ⟨h0, h1, h2, h3, h4, h5⟩ := hg
  obtain ⟨p1, p2, p3⟩ := hP
  refine ⟨putserial ((Tree.mk v sub).bufLen c vl) ++ ((Tree.mk v sub).ser c sv vl ++ (rest.kidsSer c sv vl ++ tl)),
    (Tree.mk v sub).bufLen c vl, ?_, getserial_putserial h3 _, ?_⟩
  · simp [Forest.kidsSer, Tree.ser, Nat.mod_eq_of_lt h0]
  · rw [← Tree.ser_length c sv vl ⟨v, sub⟩ P hv ⟨p1, p2⟩, List.drop_left]

/-- Scanning children none of which matches. -/
theorem scanKids_skip (act : List Byte → Frag → σ → Option (Option ρ × σ))
    (actA : α → Frag → σ → Option (Option ρ × σ)) (desc : List Byte → σ → Option (Option ρ × σ))
    (hact : ∀ x, P x → ∀ tl f s, act (sv x ++ tl) f s = actA x f s)
    (hv : ∀ x, P x → (sv x).length = vl x)
    (x : Byte) (f : Frag) (v : Option α) (hPv : ∀ y, v = some y → P y) (tl : List Byte)
    (fo : Forest α) (hP : fo.All P) (hg : fo.Good c vl) (hx : x ∉ fo.chars) (s : σ) :
    scanKids act desc v.isSome x f fo.count (fo.kidsSer c sv vl ++ (optSer sv v ++ tl)) s
      = valueStep actA v f s := by
  induction fo with
  | nil =>
    cases v with
    | none => simp [Forest.count, scanKids, Forest.kidsSer, valueStep]
    | some y => simp [Forest.count, scanKids, Forest.kidsSer, valueStep, optSer, hact y (hPv y rfl)]
  | cons ch w sub rest _ ihr =>
    obtain ⟨tl1, sl, e1, e2, e3⟩ := kidsSer_cons_read c sv vl P hv hP hg (optSer sv v ++ tl)
    simp only [Forest.chars, List.mem_cons, not_or] at hx
    simp only [Forest.count, e1, scanKids, getbyte, bind, Option.bind, e2, e3]
    rw [if_neg hx.1]
    split
    · rename_i h4
      simp only [Bool.and_eq_true, Bool.not_eq_true'] at h4
      cases v with
      | none => simp [valueStep, pure]
      | some y => simp at h4
    · exact ihr hP.2.2 hg.2.2.2.2.2 hx.2

/-- Scanning the children of a compiled node: the matching child if there is one, then the value. -/
theorem scanKids_ser (act : List Byte → Frag → σ → Option (Option ρ × σ))
    (actA : α → Frag → σ → Option (Option ρ × σ)) (desc : List Byte → σ → Option (Option ρ × σ))
    (descA : Tree α → σ → Option (Option ρ × σ))
    (hact : ∀ x, P x → ∀ tl f s, act (sv x ++ tl) f s = actA x f s)
    (hv : ∀ x, P x → (sv x).length = vl x)
    (x : Byte) (f : Frag) (v : Option α) (hPv : ∀ y, v = some y → P y) (tl : List Byte)
    (fo : Forest α) (hP : fo.All P) (hg : fo.Good c vl)
    (hdesc : ∀ t, fo.child x = some t → ∀ tl s, desc (t.ser c sv vl ++ tl) s = descA t s) (s : σ) :
    scanKids act desc v.isSome x f fo.count (fo.kidsSer c sv vl ++ (optSer sv v ++ tl)) s
      = match fo.child x with
        | none => valueStep actA v f s
        | some t => match descA t s with
          | none => none
          | some (some r, s') => some (some r, s')
          | some (none, s') => valueStep actA v f s' := by
  induction fo with
  | nil =>
    exact scanKids_skip c sv vl P act actA desc hact hv x f v hPv tl .nil hP hg (by simp [Forest.chars]) s
  | cons ch w sub rest _ ihr =>
    obtain ⟨tl1, sl, e1, e2, e3⟩ := kidsSer_cons_read c sv vl P hv hP hg (optSer sv v ++ tl)
    by_cases hx : x = ch
    · have hc : (Forest.cons ch w sub rest).child x = some ⟨w, sub⟩ := by
        simp [Forest.child, hx]
      simp only [Forest.count, e1, scanKids, getbyte, bind, Option.bind, e2, e3]
      rw [if_pos hx, hdesc _ hc, hc]
      simp only
      cases hd : descA ⟨w, sub⟩ s with
      | none => rfl
      | some y =>
        obtain ⟨q, s'⟩ := y
        cases q with
        | some q => rfl
        | none =>
          have hx' : x ∉ rest.chars := by
            intro hm; have := hg.2.1 x hm; omega
          exact scanKids_skip c sv vl P act actA desc hact hv x f v hPv tl rest hP.2.2
            hg.2.2.2.2.2 hx' s'
    · have hc : (Forest.cons ch w sub rest).child x = rest.child x := by
        simp only [Forest.child]; rw [if_neg (fun e => hx e.symm)]
      rw [hc]
      simp only [Forest.count, e1, scanKids, getbyte, bind, Option.bind, e2, e3]
      rw [if_neg hx]
      split
      · rename_i h4
        simp only [Bool.and_eq_true, decide_eq_true_eq, Bool.not_eq_true'] at h4
        have hx' : x ∉ rest.chars := by
          intro hm; have := hg.2.1 x hm; omega
        rw [Forest.child_none_of_not_mem hx']
        cases v with
        | none => simp [valueStep, pure]
        | some y => simp at h4
      · exact ihr hP.2.2 hg.2.2.2.2.2 (fun t ht => hdesc t (by rw [hc]; exact ht))

/-! ### The whole tree -/

/-- The visits of the traversal, recursively. -/
def Tree.hits : List Byte → Tree α → List (α × List Byte)
  | [], t => (t.val.map fun v => (v, [])).toList
  | c :: cs, t =>
    (match t.kids.child c with
      | none => []
      | some t' => Tree.hits cs t') ++ (t.val.map fun v => (v, c :: cs)).toList

theorem runHits_append {β : Type} (act : α → β → σ → Option (Option ρ × σ)) (l1 l2 : List (α × β)) (s : σ) :
    runHits act (l1 ++ l2) s = match runHits act l1 s with
      | none => none
      | some (some r, s') => some (some r, s')
      | some (none, s') => runHits act l2 s' := by
  induction l1 generalizing s with
  | nil => simp [runHits]
  | cons x l ih =>
    obtain ⟨v, f⟩ := x
    simp only [List.cons_append, runHits]
    cases h : act v f s with
    | none => rfl
    | some y =>
      obtain ⟨q, s'⟩ := y
      cases q with
      | some q => rfl
      | none => exact ih s'

/-- The fragment for the rest `k` of a key held in a buffer that continues with `junk`. -/
def restFrag (junk : List Byte) (k : List Byte) : Frag := ⟨k ++ junk, k.length⟩

theorem restFrag_next (junk : List Byte) (x : Byte) (k : List Byte) (h : (x :: k).length < sizeMod) :
    (restFrag junk (x :: k)).next = restFrag junk k := by
  simp only [restFrag, Frag.next, List.cons_append, List.drop_succ_cons, List.drop_zero]
  rw [Frag.mk.injEq]
  refine ⟨rfl, ?_⟩
  have e : sizeMod = 18446744073709551616 := by unfold sizeMod; rfl
  rw [e] at h ⊢
  simp only [List.length_cons] at h ⊢
  omega

theorem scanNode_ser (act : List Byte → Frag → σ → Option (Option ρ × σ))
    (actA : α → Frag → σ → Option (Option ρ × σ))
    (hact : ∀ x, P x → ∀ tl f s, act (sv x ++ tl) f s = actA x f s)
    (hv : ∀ x, P x → (sv x).length = vl x) (junk : List Byte) :
    ∀ (key : List Byte) (d : Nat) (t : Tree α) (tl : List Byte) (s : σ),
    key.length < sizeMod → key.length < d → t.All P → t.Good c vl → t.kids.AllCh (fun x => x ≠ 0) →
    scanNode c act d (t.ser c sv vl ++ tl) (restFrag junk key) s
      = runHits (fun v k => actA v (restFrag junk k)) (t.hits key) s := by
  intro key
  induction key with
  | nil =>
    intro d t tl s _ hd hP hg hz
    obtain ⟨d, rfl⟩ : ∃ d', d = d' + 1 := ⟨d - 1, by simp at hd; omega⟩
    have hch : t.kids.child 0 = none := by
      cases h : t.kids.child 0 with
      | none => rfl
      | some t' => exact absurd rfl (Forest.child_allCh hz h).2
    simp only [scanNode, Tree.ser, List.append_assoc, getcount_putcount c _ _ hg.1,
      bind, Option.bind, chfindOf, restFrag, List.length_nil, Nat.lt_irrefl, if_false, gt_iff_lt,
      hasupper_put c _ _ hg.1, getlower_put c _ _ hg.1]
    rw [scanKids_ser c sv vl P act actA _ (fun _ s => some (none, s)) hact hv 0 _ t.val hP.1 tl t.kids hP.2 hg.2
      (by intro t' h; rw [hch] at h; exact absurd h (by simp)) s]
    rw [hch]
    cases hvv : t.val with
    | none => simp [Tree.hits, hvv, valueStep, runHits]
    | some y =>
      simp only [Tree.hits, hvv, valueStep, Option.map_some, Option.toList, runHits,
        List.nil_append, List.length_nil]
      cases ha : actA y ⟨junk, 0⟩ s with
      | none => rfl
      | some z => obtain ⟨q, s'⟩ := z; cases q <;> rfl
  | cons x key ih =>
    intro d t tl s hlen hd hP hg hz
    obtain ⟨d, rfl⟩ : ∃ d', d = d' + 1 := ⟨d - 1, by simp at hd; omega⟩
    have hlen' : key.length < sizeMod := by simp only [List.length_cons] at hlen; omega
    have hd' : key.length < d := by simp only [List.length_cons] at hd; omega
    simp only [scanNode, Tree.ser, List.append_assoc, getcount_putcount c _ _ hg.1,
      bind, Option.bind, hasupper_put c _ _ hg.1, getlower_put c _ _ hg.1]
    rw [show chfindOf (restFrag junk (x :: key)) = some x by simp [chfindOf, restFrag]]
    simp only [restFrag_next junk x key hlen]
    rw [scanKids_ser c sv vl P act actA _
      (fun t' s => runHits (fun v k => actA v (restFrag junk k)) (t'.hits key) s)
      hact hv x _ t.val hP.1 tl t.kids hP.2 hg.2
      (by
        intro t' h tl s
        exact ih d t' tl s hlen' hd' (Forest.child_all hP.2 h) (Forest.child_good hg.2 h).1
          (Forest.child_allCh hz h).1) s]
    simp only [Tree.hits]
    rw [runHits_append]
    have hval : ∀ s', runHits (fun v k => actA v (restFrag junk k))
        (t.val.map fun v => (v, x :: key)).toList s' = valueStep actA t.val (restFrag junk (x :: key)) s' := by
      intro s'
      cases t.val with
      | none => simp [runHits, valueStep]
      | some y =>
        simp only [Option.map_some, Option.toList, runHits, valueStep]
        cases ha : actA y (restFrag junk (x :: key)) s' with
        | none => rfl
        | some z => obtain ⟨q, s'⟩ := z; cases q <;> rfl
    cases hc : t.kids.child x with
    | none => simp only [runHits]; exact (hval s).symm
    | some t' =>
      simp only
      cases hr : runHits (fun v k => actA v (restFrag junk k)) (t'.hits key) s with
      | none => rfl
      | some z =>
        obtain ⟨q, s'⟩ := z
        cases q with
        | some q => rfl
        | none => exact (hval s').symm

/-- The recursive visits are the stored prefixes, longest first. -/
theorem hits_eq_prefixHits (t : Tree α) (key : List Byte) :
    t.hits key = prefixHits (fun k => t.find k) key := by
  induction key generalizing t with
  | nil => simp [Tree.hits, prefixHits, Tree.find, List.range_succ]; cases t.val <;> rfl
  | cons x key ih =>
    have hr : (List.range ((x :: key).length + 1)).reverse
        = ((List.range (key.length + 1)).map Nat.succ).reverse ++ [0] := by
      rw [List.length_cons, List.range_succ_eq_map]; simp
    simp only [prefixHits] at ih ⊢
    rw [hr]
    simp only [Tree.hits, List.filterMap_append, ← List.map_reverse, List.filterMap_map]
    congr 1
    · have hcomp : ((fun k => Option.map (fun v => (v, (x :: key).drop k)) (Tree.find ((x :: key).take k) t)) ∘ Nat.succ)
        = fun k => Option.map (fun v => (v, key.drop k)) (match t.kids.child x with
            | none => none
            | some t' => Tree.find (key.take k) t') := by
        funext k; simp [Tree.find]
        cases t.kids.child x <;> rfl
      rw [hcomp]
      cases hc : t.kids.child x with
      | none => simp
      | some t' => simp only [ih]

end Libmorph
