import Verif.Model.Stems
import Verif.Lemmas.History
namespace Libmorph
variable {σ ρ : Type}

/-- Entries that fit the image format. -/
structure Entry.Ok (e : Entry) : Prop where
  id : e.nlexid < 2 ^ 32
  cls : e.oclass < 0x8000
  post : e.stpost.length < 128

theorem or_8000 {n : Nat} (h : n < 0x8000) : n ||| 0x8000 = n + 0x8000 := by
  have := or_shift_eq_add (acc := n) (m := 1) (k := 15) (by omega)
  simpa using this

theorem and_8000_lt {n : Nat} (h : n < 0x8000) : n &&& 0x8000 = 0 := by
  have := and_two_pow_if n 15
  rw [Nat.testBit_lt_two_pow (by omega)] at this
  simpa using this

theorem and_8000_add {n : Nat} (h : n < 0x8000) : (n + 0x8000) &&& 0x8000 = 0x8000 := by
  have := and_two_pow_if (n + 0x8000) 15
  have e : (n + 2 ^ 15).testBit 15 = true := by
    rw [Nat.add_comm, Nat.testBit_two_pow_add_eq, Nat.testBit_lt_two_pow (by omega)]; rfl
  rw [show n + 0x8000 = n + 2 ^ 15 from rfl] at *
  rw [e] at this
  simpa using this

theorem and_7fff (n : Nat) : n &&& 0x7fff = n % 0x8000 := by
  have := Nat.and_two_pow_sub_one_eq_mod n 15
  simpa using this

theorem putserial_short {n : Nat} (h : n < 128) : putserial n = [n] := by
  rw [putserial]; simp [h]

theorem readEntry_ser (e : Entry) (h : e.Ok) (tl : List Byte) :
    readEntry (e.ser ++ tl)
      = some ((e.chrmin, e.chrmax, e.nlexid, e.oclass,
          if e.stpost.isEmpty then none else some e.stpost), tl) := by
  obtain ⟨chrmin, chrmax, nlexid, oclass, stpost⟩ := e
  obtain ⟨h1, h2, h3⟩ := h
  simp only at h1 h2 h3
  cases stpost with
  | nil =>
    simp only [Entry.ser, List.isEmpty_nil, if_true, Nat.or_zero, and_8000_lt h2, ne_eq, not_true_eq_false,
      if_false, List.append_nil, List.append_assoc, List.cons_append, List.nil_append, readEntry, getbyte,
      bind, Option.bind, getserial_putserial h1, getword16_putword16 (show oclass < 2 ^ 16 by omega),
      and_7fff, Nat.mod_eq_of_lt h2]
    rfl
  | cons b bs =>
    have hw : oclass ||| 0x8000 = oclass + 0x8000 := or_8000 h2
    simp only [Entry.ser, List.isEmpty_cons, Bool.false_eq_true, if_false, hw, and_8000_add h2, ne_eq,
      List.append_assoc, List.cons_append, List.nil_append, readEntry, getbyte,
      bind, Option.bind, getserial_putserial h1,
      getword16_putword16 (show oclass + 0x8000 < 2 ^ 16 by omega), and_7fff]
    simp only [putserial_short h3, List.cons_append, List.nil_append, if_true, not_false_eq_true,
      show ((0x8000 : Nat) = 0) = False by simp]
    simp only [List.length_cons, List.length_append]
    rw [if_neg (by omega)]
    simp only [pure]
    have e1 : List.take (bs.length + 1) (b :: (bs ++ tl)) = b :: bs := by
      simp
    have e2 : List.drop (bs.length + 1) (b :: (bs ++ tl)) = tl := by
      simp
    rw [e1, e2, show (oclass + 0x8000) % 0x8000 = oclass by omega]

theorem Entry.ser_length (e : Entry) (h : e.Ok) : e.ser.length = e.len := by
  obtain ⟨chrmin, chrmax, nlexid, oclass, stpost⟩ := e
  obtain ⟨h1, h2, h3⟩ := h
  simp only at h1 h2 h3
  cases stpost with
  | nil =>
    simp only [Entry.ser, Entry.len, List.isEmpty_nil, if_true, Nat.or_zero, and_8000_lt h2, ne_eq, not_true_eq_false,
      if_false, List.append_nil, List.length_append, putserial_len, putword16, List.length_cons, List.length_nil]
    omega
  | cons b bs =>
    have hw : oclass ||| 0x8000 = oclass + 0x8000 := or_8000 h2
    simp only [Entry.ser, Entry.len, List.isEmpty_cons, Bool.false_eq_true, if_false, hw, and_8000_add h2, ne_eq,
      List.length_append, putword16, List.length_cons, List.length_nil]
    have h3' : bs.length + 1 < 128 := by simpa using h3
    rw [putserial_len, if_pos (by simp), putserial_short h3']
    simp only [List.length_append, List.length_cons, List.length_nil]
    omega

/-- Entry lists that fit the image format. -/
def EntriesOk (l : List Entry) : Prop := l.length < 2 ^ 32 ∧ ∀ e ∈ l, e.Ok

theorem entriesSer_length (l : List Entry) (h : EntriesOk l) : (entriesSer l).length = entriesLen l := by
  simp only [entriesSer, entriesLen, List.length_append, putserial_len]
  congr 1
  have h2 := h.2
  clear h
  induction l with
  | nil => rfl
  | cons e l ih =>
    simp only [List.map_cons, List.flatten_cons, List.length_append, List.sum_cons]
    rw [Entry.ser_length e (h2 e (by simp)), ih (fun x hx => h2 x (by simp [hx]))]

/-! ### The scanners on compiled lists -/

/-- The lookup loop on entries instead of bytes. -/
def lookupEntries (output : Nat → Nat → Frag → List Byte → σ → Option (Option ρ × σ)) (f : Frag) :
    List Entry → σ → Option (Option ρ × σ)
  | [], s => some (none, s)
  | e :: l, s =>
    match suffixCheck f (if e.stpost.isEmpty then none else some e.stpost) with
    | none => none
    | some none => lookupEntries output f l s
    | some (some ccflex) =>
      match pruneStep f e.chrmin e.chrmax ccflex with
      | none => none
      | some .stop => some (none, s)
      | some .skip => lookupEntries output f l s
      | some (.call ccflex) =>
        match output e.nlexid e.oclass ⟨f.mem, ccflex⟩ e.stpost s with
        | none => none
        | some (some r, s) => some (some r, s)
        | some (none, s) => lookupEntries output f l s

theorem ite_getD (l : List Byte) : (if l.isEmpty = true then none else some l).getD [] = l := by
  cases l <;> rfl

theorem lookupLoop_ser (output : Nat → Nat → Frag → List Byte → σ → Option (Option ρ × σ)) (f : Frag)
    (l : List Entry) (h : ∀ e ∈ l, e.Ok) (tl : List Byte) (s : σ) :
    lookupLoop output f l.length ((l.map Entry.ser).flatten ++ tl) s = lookupEntries output f l s := by
  induction l generalizing s with
  | nil => rfl
  | cons e l ih =>
    have ih := fun s => ih (fun x hx => h x (by simp [hx])) s
    simp only [List.length_cons, List.map_cons, List.flatten_cons, List.append_assoc, lookupLoop,
      lookupEntries, readEntry_ser e (h e (by simp)), bind, Option.bind, ite_getD]
    cases suffixCheck f (if e.stpost.isEmpty = true then none else some e.stpost) with
    | none => rfl
    | some cc =>
      cases cc with
      | none => exact ih s
      | some cc =>
        simp only
        cases pruneStep f e.chrmin e.chrmax cc with
        | none => rfl
        | some pr =>
          cases pr with
          | stop => rfl
          | skip => exact ih s
          | call cc =>
            simp only
            cases output e.nlexid e.oclass ⟨f.mem, cc⟩ e.stpost s with
            | none => rfl
            | some z =>
              obtain ⟨q, s'⟩ := z
              cases q with
              | some q => rfl
              | none => exact ih s'

theorem lookupList_ser (output : Nat → Nat → Frag → List Byte → σ → Option (Option ρ × σ)) (f : Frag)
    (l : List Entry) (h : EntriesOk l) (tl : List Byte) (s : σ) :
    lookupList output (entriesSer l ++ tl) f s = lookupEntries output f l s := by
  simp only [lookupList, entriesSer, List.append_assoc, getserial_putserial h.1, bind, Option.bind]
  exact lookupLoop_ser output f l h.2 tl s

/-! ### The tree of entries -/

theorem insEntry_mem {e x : Entry} {l : List Entry} : x ∈ insEntry e l ↔ x = e ∨ x ∈ l := by
  induction l with
  | nil => simp [insEntry]
  | cons y l ih =>
    simp only [insEntry]
    split
    · simp only [List.mem_cons, ih]; tauto
    · simp

theorem insEntry_length {e : Entry} {l : List Entry} : (insEntry e l).length = l.length + 1 := by
  induction l with
  | nil => rfl
  | cons y l ih => simp only [insEntry]; split <;> simp [ih]

/-- `fileAll` as a history. -/
def entryHist (l : List (List Byte × Entry)) : List (List Byte × (Option (List Entry) → List Entry)) :=
  l.map fun p => (p.1, fun o => insEntry p.2 (o.getD []))

theorem fileAll_eq (l : List (List Byte × Entry)) : fileAll l = runHist (entryHist l) := by
  simp only [fileAll, runHist, entryHist, List.foldl_map]
  rfl

/-- The entries filed under a stem: sorted insertion of the entries with that stem, in order. -/
def filedUnder (l : List (List Byte × Entry)) (stem : List Byte) : List Entry :=
  ((l.filter fun p => p.1 = stem).map (·.2)).foldl (fun acc e => insEntry e acc) []

theorem fileAll_find (l : List (List Byte × Entry)) (stem : List Byte) :
    (fileAll l).find stem
      = if stem ∈ l.map Prod.fst then some (filedUnder l stem) else none := by
  rw [fileAll_eq, (runHist_desc_find _).2]
  have hf : ∀ (m : List (List Byte × Entry)) (o : Option (List Entry)),
      (entryHist m).foldl (fun o p => some (p.2 o)) o
        = if m = [] then o else some ((m.map (·.2)).foldl (fun acc e => insEntry e acc) (o.getD [])) := by
    intro m
    induction m with
    | nil => intro o; simp [entryHist]
    | cons p m ih =>
      intro o
      have h1 : entryHist (p :: m) = (p.1, fun o => insEntry p.2 (o.getD [])) :: entryHist m := rfl
      rw [h1, List.foldl_cons, ih]
      cases m <;> simp
  have hfil : (entryHist l).filter (fun p => p.1 = stem) = entryHist (l.filter fun p => p.1 = stem) := by
    simp only [entryHist, List.filter_map]
    rfl
  simp only [histFind]
  rw [hfil, hf]
  by_cases h : stem ∈ l.map Prod.fst
  · rw [if_pos h]
    obtain ⟨⟨k, e⟩, he, rfl⟩ := List.mem_map.1 h
    rw [if_neg]
    · rfl
    · intro hn
      have : (k, e) ∈ l.filter (fun p => p.1 = k) := by simp [he]
      rw [hn] at this; simp at this
  · rw [if_neg h]
    rw [if_pos]
    apply List.filter_eq_nil_iff.2
    rintro ⟨k, e⟩ hp
    simp only [decide_eq_true_eq]
    rintro rfl
    exact h (List.mem_map.2 ⟨_, hp, rfl⟩)

theorem foldl_insEntry_mem {x : Entry} (l : List Entry) (acc : List Entry) :
    x ∈ l.foldl (fun acc e => insEntry e acc) acc ↔ x ∈ l ∨ x ∈ acc := by
  induction l generalizing acc with
  | nil => simp
  | cons e l ih => simp only [List.foldl_cons, ih, insEntry_mem, List.mem_cons]; tauto

theorem mem_filedUnder {l : List (List Byte × Entry)} {stem : List Byte} {e : Entry} :
    e ∈ filedUnder l stem ↔ (stem, e) ∈ l := by
  simp only [filedUnder, foldl_insEntry_mem, List.mem_map, List.mem_filter, decide_eq_true_eq,
    List.not_mem_nil, or_false]
  constructor
  · rintro ⟨⟨k, e'⟩, ⟨h1, h2⟩, h3⟩
    simp only at h2 h3; subst h2; subst h3; exact h1
  · intro h; exact ⟨(stem, e), ⟨h, rfl⟩, rfl⟩

end Libmorph
