import Verif.Lemmas.Dict
namespace Libmorph
variable {σ ρ : Type}

theorem mem_entryOffsets {l : List Entry} {off id pos : Nat} :
    (id, pos) ∈ entryOffsets l off ↔
      ∃ l1 e l2, l = l1 ++ e :: l2 ∧ id = e.nlexid ∧ pos = off + (l1.map Entry.len).sum := by
  induction l generalizing off with
  | nil => simp [entryOffsets]
  | cons x l ih =>
    simp only [entryOffsets, List.mem_cons, Prod.mk.injEq, ih]
    constructor
    · rintro (⟨rfl, rfl⟩ | ⟨l1, e, l2, rfl, rfl, rfl⟩)
      · exact ⟨[], x, l, rfl, rfl, by simp⟩
      · exact ⟨x :: l1, e, l2, rfl, rfl, by simp; omega⟩
    · rintro ⟨l1, e, l2, h1, rfl, rfl⟩
      cases l1 with
      | nil =>
        simp only [List.nil_append, List.cons.injEq] at h1
        obtain ⟨rfl, rfl⟩ := h1
        exact Or.inl ⟨rfl, by simp⟩
      | cons y l1 =>
        simp only [List.cons_append, List.cons.injEq] at h1
        obtain ⟨rfl, rfl⟩ := h1
        exact Or.inr ⟨l1, e, l2, rfl, rfl, by simp; omega⟩

theorem mem_lidPairs {t : Tree (List Entry)} {id pos : Nat} :
    (id, pos) ∈ lidPairs t ↔
      ∃ k es1 e es2 o, (k, es1 ++ e :: es2, o) ∈ t.placed .u8 entriesLen ∧ id = e.nlexid ∧
        pos = o + serialLen (es1 ++ e :: es2).length + (es1.map Entry.len).sum := by
  simp only [lidPairs, List.mem_flatMap, Tree.enumerate_eq, List.mem_map, mem_entryOffsets]
  constructor
  · rintro ⟨⟨es, o⟩, ⟨⟨k, es', o'⟩, hm, he⟩, l1, e, l2, h1, h2, h3⟩
    simp only [Prod.mk.injEq] at he h1 h3
    obtain ⟨rfl, rfl⟩ := he
    subst h1
    exact ⟨k, l1, e, l2, o', hm, h2, h3⟩
  · rintro ⟨k, es1, e, es2, o, hm, h1, h2⟩
    exact ⟨(es1 ++ e :: es2, o), ⟨_, hm, rfl⟩, es1, e, es2, rfl, h1, h2⟩

theorem lidTree_eq (t : Tree (List Entry)) :
    lidTree t = runHist ((lidPairs t).map fun p => (lexkeybuf p.1, fun _ => p.2)) := by
  simp only [lidTree, runHist, List.foldl_map]

theorem histFind_const {pairs : List (Nat × Nat)} {key : Nat → List Byte} {k : List Byte} :
    (∀ v, histFind (pairs.map fun p => (key p.1, fun _ : Option Nat => p.2)) k = some v →
      ∃ p ∈ pairs, key p.1 = k ∧ p.2 = v) ∧
    ((∃ p ∈ pairs, key p.1 = k) →
      ∃ v, histFind (pairs.map fun p => (key p.1, fun _ : Option Nat => p.2)) k = some v) := by
  have hfil : (pairs.map fun p => (key p.1, fun _ : Option Nat => p.2)).filter (fun p => p.1 = k)
      = (pairs.filter fun p => key p.1 = k).map fun p => (key p.1, fun _ : Option Nat => p.2) := by
    simp only [List.filter_map]; rfl
  have hfold : ∀ (m : List (Nat × Nat)) (o : Option Nat),
      (m.map fun p => (key p.1, fun _ : Option Nat => p.2)).foldl (fun o p => some (p.2 o)) o
        = match m.getLast? with
          | none => o
          | some p => some p.2 := by
    intro m
    induction m with
    | nil => intro o; rfl
    | cons p m ih =>
      intro o
      simp only [List.map_cons, List.foldl_cons, ih]
      cases m with
      | nil => rfl
      | cons q m => simp [List.getLast?_cons_cons]; cases h : (q :: m).getLast? <;> simp_all
  simp only [histFind, hfil, hfold]
  constructor
  · intro v hv
    cases hl : (pairs.filter fun p => key p.1 = k).getLast? with
    | none => simp [hl] at hv
    | some p =>
      simp only [hl, Option.some.injEq] at hv
      have := List.mem_of_getLast? hl
      simp only [List.mem_filter, decide_eq_true_eq] at this
      exact ⟨p, this.1, this.2, hv⟩
  · rintro ⟨p, hp, hk⟩
    have hm : p ∈ pairs.filter fun p => key p.1 = k := by simp [hp, hk]
    cases hl : (pairs.filter fun p => key p.1 = k).getLast? with
    | none => rw [List.getLast?_eq_none_iff] at hl; rw [hl] at hm; simp at hm
    | some q => exact ⟨q.2, by simp⟩

theorem lexkeybuf_length_le (id : Nat) : (lexkeybuf id).length ≤ 3 := by
  unfold lexkeybuf; split_ifs <;> simp

theorem lexkeybuf_lt (id : Nat) : ∀ b ∈ lexkeybuf id, b < 256 := by
  intro b hb
  unfold lexkeybuf at hb
  split_ifs at hb <;>
    simp only [List.mem_cons, List.not_mem_nil, or_false] at hb <;> omega

/-- All ids are below 2^24 and the id image is below 4 GB. -/
structure LidOk (l : List (List Byte × Entry)) : Prop where
  ids : ∀ p ∈ l, p.2.nlexid < 2 ^ 24
  size : (lidImage (lidTree (fileAll l))).length < 2 ^ 32

theorem placed_filed {l : List (List Byte × Entry)} {k : List Byte} {es : List Entry} {o : Nat}
    (h : (k, es, o) ∈ (fileAll l).placed .u8 entriesLen) : es = filedUnder l k ∧ k ∈ l.map Prod.fst := by
  have hent : (es, k) ∈ (fileAll l).entries := by
    rw [← Tree.placed_entries .u8 entriesLen]
    exact List.mem_map.2 ⟨_, h, rfl⟩
  have hfind := (Tree.mem_entries_iff _ (fileAll_desc l) _ _).1 hent
  rw [fileAll_find] at hfind
  split at hfind
  · exact ⟨by simpa using hfind.symm, by assumption⟩
  · simp at hfind

theorem filed_placed {l : List (List Byte × Entry)} {k : List Byte} (h : k ∈ l.map Prod.fst) :
    ∃ o, (k, filedUnder l k, o) ∈ (fileAll l).placed .u8 entriesLen := by
  have hfind : (fileAll l).find k = some (filedUnder l k) := by rw [fileAll_find, if_pos h]
  have hent := (Tree.mem_entries_iff _ (fileAll_desc l) _ _).2 hfind
  rw [← Tree.placed_entries .u8 entriesLen] at hent
  obtain ⟨⟨k', es, o⟩, hm, he⟩ := List.mem_map.1 hent
  simp only [Prod.mk.injEq] at he
  obtain ⟨rfl, rfl⟩ := he
  exact ⟨o, hm⟩

/-- The ids in the id tree are the ids of the dictionary. -/
theorem lidPairs_ids {l : List (List Byte × Entry)} {id : Nat} :
    (∃ pos, (id, pos) ∈ lidPairs (fileAll l)) ↔ ∃ p ∈ l, p.2.nlexid = id := by
  simp only [mem_lidPairs]
  constructor
  · rintro ⟨pos, k, es1, e, es2, o, hm, rfl, _⟩
    obtain ⟨h1, h2⟩ := placed_filed hm
    refine ⟨(k, e), ?_, rfl⟩
    rw [← mem_filedUnder, ← h1]; simp
  · rintro ⟨⟨k, e⟩, hp, rfl⟩
    obtain ⟨o, ho⟩ := filed_placed (List.mem_map.2 ⟨_, hp, rfl⟩ : k ∈ l.map Prod.fst)
    have he : e ∈ filedUnder l k := mem_filedUnder.2 hp
    obtain ⟨es1, es2, hs⟩ := List.append_of_mem he
    rw [hs] at ho
    exact ⟨_, k, es1, e, es2, o, ho, rfl, rfl⟩

theorem lidPos_lt {A : List Byte} {l : List (List Byte × Entry)} (h : DictOk A l) {id pos : Nat}
    (hm : (id, pos) ∈ lidPairs (fileAll l)) : pos < 2 ^ 32 := by
  obtain ⟨k, es1, e, es2, o, hp, rfl, rfl⟩ := mem_lidPairs.1 hm
  have := (trackDict (σ := Unit) (ρ := Unit) h (fun _ _ _ _ _ => none) k es1 es2 e o hp () []).1
  have hs := h.size
  omega

theorem lidTree_all {A : List Byte} {l : List (List Byte × Entry)} (h : DictOk A l) :
    (lidTree (fileAll l)).All (· < 2 ^ 32) := by
  rw [lidTree_eq]
  refine (runHist_inv _ (fun _ => True) 3 (· < 2 ^ 32) (by intros; trivial) ?_ ?_).2.2
  · intro p hp
    obtain ⟨q, hq, rfl⟩ := List.mem_map.1 hp
    exact lexkeybuf_length_le _
  · intro p hp o _
    obtain ⟨q, hq, rfl⟩ := List.mem_map.1 hp
    exact lidPos_lt h (id := q.1) hq

theorem lidTree_inv (l : List (List Byte × Entry)) :
    (lidTree (fileAll l)).kids.AllCh (· ∈ List.range 256) ∧ (lidTree (fileAll l)).kids.depth ≤ 3 ∧
    (lidTree (fileAll l)).kids.Desc := by
  rw [lidTree_eq]
  have := runHist_inv ((lidPairs (fileAll l)).map fun p => (lexkeybuf p.1, fun _ : Option Nat => p.2))
    (· ∈ List.range 256) 3 (fun _ => True)
    (by
      intro p hp b hb
      obtain ⟨q, hq, rfl⟩ := List.mem_map.1 hp
      exact List.mem_range.2 (lexkeybuf_lt _ b hb))
    (by
      intro p hp
      obtain ⟨q, hq, rfl⟩ := List.mem_map.1 hp
      exact lexkeybuf_length_le _)
    (by intros; trivial)
  exact ⟨this.1, this.2.1, (runHist_desc_find _).1⟩

theorem serialLen_putserial (n : Nat) : (putserial n).length = serialLen n := putserial_len n

theorem lidTree_good {A : List Byte} {l : List (List Byte × Entry)} (h : DictOk A l) (hl : LidOk l) :
    (lidTree (fileAll l)).Good .u16 serialLen := by
  obtain ⟨h1, h2, h3⟩ := lidTree_inv l
  refine Tree.good_of h3 h1 (by simp [Counter.top]) (fun x hx => List.mem_range.1 hx) ?_
  rw [← Tree.ser_length .u16 putserial serialLen _ (· < 2 ^ 32) (fun x _ => putserial_len x) (lidTree_all h)]
  exact hl.size

/-- The lookup of an id returns what the id tree holds under its key. -/
theorem lidLookup_find {A : List Byte} {l : List (List Byte × Entry)} (h : DictOk A l) (hl : LidOk l)
    (junk tl : List Byte) (id : Nat) (hj : 4 ≤ (lexkey id).length + junk.length) :
    lidLookup (lidImage (lidTree (fileAll l)) ++ tl) junk id
      = some ((lidTree (fileAll l)).find (lexkey id)) := by
  have hm : maxLevels = 64 := rfl
  obtain ⟨h1, h2, h3⟩ := lidTree_inv l
  have hkl := lexkey_length_le id
  have key := scanNode_exact .u16 putserial serialLen (· < 2 ^ 32)
    (fun p f s => mapRes (fun p => (getserial p).map Prod.fst) (getofs p f s))
    (fun n s => some (some (some n), s))
    (by
      intro x hx tl f s hf
      simp [getofs, Frag.isEmpty, hf, mapRes, getserial_putserial hx])
    (by
      intro p f s hf
      simp [getofs, Frag.isEmpty, hf, mapRes])
    (fun x _ => putserial_len x) junk (lexkey id) maxLevels (lidTree (fileAll l)) tl ()
    (by unfold sizeMod; omega) (by omega) (by unfold sizeMod; omega) (by omega)
    (lidTree_all h) (lidTree_good h hl)
  rw [scanNode_map] at key
  simp only [restFrag] at key
  simp only [lidLookup, scanTree, lidImage, bind, Option.bind]
  cases hs : scanNode .u16 getofs maxLevels (Tree.ser .u16 putserial serialLen (lidTree (fileAll l)) ++ tl)
      ⟨lexkey id ++ junk, (lexkey id).length⟩ () with
  | none =>
    rw [hs] at key
    cases hf : (lidTree (fileAll l)).find (lexkey id) <;> simp [mapRes, hf] at key
  | some y =>
    obtain ⟨q, s'⟩ := y
    rw [hs] at key
    cases hf : (lidTree (fileAll l)).find (lexkey id) with
    | none =>
      simp only [mapRes, hf] at key
      cases q with
      | none => rfl
      | some p => simp at key
    | some n =>
      simp only [mapRes, hf] at key
      cases q with
      | none => simp at key
      | some p =>
        simp only [Option.map_some, Option.some.injEq, Prod.mk.injEq, and_true] at key
        simp only
        cases hg : getserial p with
        | none => simp [hg] at key
        | some z =>
          simp only [hg, Option.map_some, Option.some.injEq] at key
          simp [key, pure]

theorem lidLookup_absent {A : List Byte} {l : List (List Byte × Entry)} (h : DictOk A l) (hl : LidOk l)
    (junk tl : List Byte) (id : Nat) (hid : id < 2 ^ 32) (hj : 4 ≤ (lexkey id).length + junk.length)
    (hn : ∀ p ∈ l, p.2.nlexid ≠ id) :
    lidLookup (lidImage (lidTree (fileAll l)) ++ tl) junk id = some none := by
  rw [lidLookup_find h hl junk tl id hj]
  congr 1
  cases hf : (lidTree (fileAll l)).find (lexkey id) with
  | none => rfl
  | some v =>
    exfalso
    rw [lidTree_eq, (runHist_desc_find _).2] at hf
    obtain ⟨p, hp, hk, hv⟩ := histFind_const.1 v hf
    obtain ⟨q, hq, hqe⟩ := lidPairs_ids.1 ⟨p.2, (hp : (p.1, p.2) ∈ _)⟩
    have hq24 := hl.ids q hq
    rw [hqe] at hq24
    rw [lexkeybuf_eq hq24] at hk
    have := C02_keys_distinct p.1 id (by omega) hid hk
    exact hn q hq (by omega)

theorem lidLookup_present {A : List Byte} {l : List (List Byte × Entry)} (h : DictOk A l) (hl : LidOk l)
    (junk tl : List Byte) (id : Nat) (hj : 4 ≤ (lexkey id).length + junk.length)
    (hn : ∃ p ∈ l, p.2.nlexid = id) :
    ∃ pos, lidLookup (lidImage (lidTree (fileAll l)) ++ tl) junk id = some (some pos) ∧
      (id, pos) ∈ lidPairs (fileAll l) := by
  rw [lidLookup_find h hl junk tl id hj]
  obtain ⟨q, hq, hqe⟩ := hn
  have hid24 : id < 2 ^ 24 := by rw [← hqe]; exact hl.ids q hq
  obtain ⟨pos, hpos⟩ := lidPairs_ids.2 ⟨q, hq, hqe⟩
  rw [lidTree_eq, (runHist_desc_find _).2]
  obtain ⟨v, hv⟩ := histFind_const (pairs := lidPairs (fileAll l)) (key := lexkeybuf) (k := lexkey id) |>.2
    ⟨(id, pos), hpos, lexkeybuf_eq hid24⟩
  obtain ⟨p, hp, hk, hpv⟩ := histFind_const.1 v hv
  refine ⟨v, by rw [hv], ?_⟩
  obtain ⟨q', hq', hqe'⟩ := lidPairs_ids.1 ⟨p.2, (hp : (p.1, p.2) ∈ _)⟩
  have hq24 := hl.ids q' hq'
  rw [hqe'] at hq24
  rw [lexkeybuf_eq hq24] at hk
  have : p.1 = id := C02_keys_distinct p.1 id (by omega) (by omega) hk
  rw [← this, ← hpv]; exact hp

end Libmorph
