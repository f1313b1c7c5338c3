import Verif.Spec.Sample
/-! C07, C08, C09 — lookup by lexeme id, positions lead back to stems, entries survive compilation. -/
namespace Libmorph
variable {σ ρ : Type}

/-- C09: every stem entry within the limits of the format is read back with the same fields (a
missing suffix as the empty one), whatever bytes follow, and takes the announced number of bytes. -/
theorem C09_entry_read_back (e : Entry) (hid : e.nlexid < 2 ^ 32) (hc : e.oclass < 0x8000)
    (hp : e.stpost.length < 128) (rest : List Byte) :
    (∃ post, readEntry (e.ser ++ rest) = some ((e.chrmin, e.chrmax, e.nlexid, e.oclass, post), rest)
      ∧ post.getD [] = e.stpost) ∧ e.ser.length = e.len :=
  ⟨⟨_, readEntry_ser e ⟨hid, hc, hp⟩ rest, ite_getD _⟩, Entry.ser_length e ⟨hid, hc, hp⟩⟩

/-- C09, the limit is real: a class offset of 0x8000 or more without a suffix is read back as an
entry with a suffix. -/
theorem C09_class_limit : ∃ e : Entry, e.nlexid < 2 ^ 32 ∧ e.oclass < 2 ^ 16 ∧ e.stpost = [] ∧
    ∀ rest, readEntry (e.ser ++ rest) ≠ some ((e.chrmin, e.chrmax, e.nlexid, e.oclass, none), rest) := by
  refine ⟨⟨0, 0, 1, 0x8000, []⟩, by decide, by decide, rfl, ?_⟩
  intro rest h
  have h1 : putserial 0 = [0] := by rw [putserial]; simp
  have h2 : putserial 1 = [1] := by rw [putserial]; simp
  simp only [Entry.ser, List.isEmpty_nil, if_true, List.length_nil, h1, h2, putword16] at h
  simp [readEntry, getbyte, getserial, getserialLoop, getword16] at h

/-- The position recorded for an entry leads to that entry's bytes. -/
theorem record_at {A : List Byte} {l : List (List Byte × Entry)} (h : DictOk A l) {id pos : Nat}
    (hm : (id, pos) ∈ lidPairs (fileAll l)) (tl : List Byte) :
    ∃ k e, (k, e) ∈ l ∧ e.nlexid = id ∧ pos < (stemImage (fileAll l)).length ∧
      (∃ rest, (stemImage (fileAll l) ++ tl).drop pos = e.ser ++ rest) ∧
      ∀ (σ ρ : Type) (output : Nat → Nat → List Byte → List Byte → σ → Option (Option ρ × σ)) (s : σ),
        getTrack .u8 (selectView output ((stemImage (fileAll l) ++ tl).length - pos))
          (some ((stemImage (fileAll l) ++ tl).length - pos)) 48 (stemImage (fileAll l) ++ tl) [] s
          = output e.nlexid e.oclass k e.stpost s := by
  obtain ⟨k, es1, e, es2, o, hp, rfl, rfl⟩ := mem_lidPairs.1 hm
  obtain ⟨h1, h2⟩ := placed_filed hp
  have hmem : e ∈ filedUnder l k := by rw [← h1]; simp
  have hok : EntriesOk (es1 ++ e :: es2) := by rw [h1]; exact h.entriesOk k
  refine ⟨k, e, mem_filedUnder.1 hmem, rfl, ?_, ?_, ?_⟩
  · exact (trackDict (σ := Unit) (ρ := Unit) h (fun _ _ _ _ _ => none) k es1 es2 e o hp () tl).1
  · obtain ⟨tl', hdrop⟩ := Tree.placed_drop .u8 entriesSer entriesLen EntriesOk entriesSer_length _ h.all _ _ _ hp tl
    have hs1 := sum_len_eq es1 (fun x hx => hok.2 x (by simp [hx]))
    refine ⟨(es2.map Entry.ser).flatten ++ tl', ?_⟩
    rw [show o + serialLen (es1 ++ e :: es2).length + (es1.map Entry.len).sum
      = o + (serialLen (es1 ++ e :: es2).length + (es1.map Entry.len).sum) by omega, ← List.drop_drop]
    show List.drop _ (List.drop o ((fileAll l).ser .u8 entriesSer entriesLen ++ tl)) = _
    rw [hdrop]
    simp only [entriesSer, List.map_append, List.map_cons, List.flatten_append, List.flatten_cons, ← List.append_assoc]
    rw [← putserial_len, ← hs1, ← List.length_append]
    simp only [List.append_assoc]
    rw [← List.append_assoc, List.drop_left]
  · intro σ ρ output s
    exact (trackDict h output k es1 es2 e o hp s tl).2

/-- C07.  Ids below 2^24 compiled in; any 32-bit id looked up; any bytes in the rest of the 16-byte
key buffer and after the images.  An id that was not compiled in is not found; an id that was is
found and the offset leads to the bytes of an entry compiled under that id.
Missing for the full statement: compiled ids from 2^24 on, where it is false
(`C07_counterexample`). -/
theorem C07_lid_lookup_partial {A : List Byte} {l : List (List Byte × Entry)} (h : DictOk A l) (hl : LidOk l)
    (junk tl tl' : List Byte) (id : Nat) (hid : id < 2 ^ 32) (hj : (lexkey id).length + junk.length = 16) :
    ((∀ p ∈ l, p.2.nlexid ≠ id) → lidLookup (lidImage (lidTree (fileAll l)) ++ tl) junk id = some none) ∧
    ((∃ p ∈ l, p.2.nlexid = id) → ∃ pos, lidLookup (lidImage (lidTree (fileAll l)) ++ tl) junk id = some (some pos) ∧
      ∃ k e rest, (k, e) ∈ l ∧ e.nlexid = id ∧ pos < (stemImage (fileAll l)).length ∧
        (stemImage (fileAll l) ++ tl').drop pos = e.ser ++ rest) := by
  refine ⟨lidLookup_absent h hl junk tl id hid (by omega), fun hx => ?_⟩
  obtain ⟨pos, h1, h2⟩ := lidLookup_present h hl junk tl id (by omega) hx
  obtain ⟨k, e, h3, h4, h5, ⟨rest, h6⟩, _⟩ := record_at h h2 tl'
  exact ⟨pos, h1, k, e, rest, h3, h4, h5, h6⟩

/-- The full statement is false of the code: an id from 2^24 on that was compiled in is not
found. -/
theorem C07_counterexample : ∃ (A : List Byte) (l : List (List Byte × Entry)) (id : Nat),
    DictOk A l ∧ (∃ p ∈ l, p.2.nlexid = id) ∧ id < 2 ^ 32 ∧
    lidLookup (lidImage (lidTree (fileAll l))) (List.replicate 12 0) id = some none := by
  refine ⟨[97], [([97], ⟨0, 0, 0x01020304, 0, []⟩)], 0x01020304, ?_, by decide, by decide, by decide +kernel⟩
  exact ⟨by decide, by decide, by decide, by decide, by decide, by decide, by decide, by decide, by decide +kernel⟩

/-- C08: for every entry of the dictionary a position is recorded under its id; following that
position through the stem image (bytes after the image arbitrary) calls the collector once, with
precisely that entry's id, class, stem string and suffix. -/
theorem C08_position_leads_back {A : List Byte} {l : List (List Byte × Entry)} (h : DictOk A l)
    (k : List Byte) (e : Entry) (hm : (k, e) ∈ l) :
    ∃ pos, (e.nlexid, pos) ∈ lidPairs (fileAll l) ∧
      ∀ (tl : List Byte) (σ ρ : Type) (output : Nat → Nat → List Byte → List Byte → σ → Option (Option ρ × σ)) (s : σ),
        let img := stemImage (fileAll l) ++ tl
        getTrack .u8 (selectView output (img.length - pos)) (some (img.length - pos)) 48 img [] s
          = output e.nlexid e.oclass k e.stpost s := by
  obtain ⟨o, ho⟩ := filed_placed (List.mem_map.2 ⟨_, hm, rfl⟩ : k ∈ l.map Prod.fst)
  have hmem := mem_filedUnder.2 hm
  obtain ⟨es1, es2, he⟩ := List.append_of_mem hmem
  rw [he] at ho
  refine ⟨_, mem_lidPairs.2 ⟨k, es1, e, es2, o, ho, rfl, rfl⟩, ?_⟩
  intro tl σ ρ output s
  exact (trackDict h output k es1 es2 e o ho s tl).2

/-- C07 and C08 together: when the id belongs to one entry only, lookup by id and following the
position yields that entry and its stem. -/
theorem C08_by_id {A : List Byte} {l : List (List Byte × Entry)} (h : DictOk A l) (hl : LidOk l)
    (k : List Byte) (e : Entry) (hm : (k, e) ∈ l) (huniq : ∀ p ∈ l, p.2.nlexid = e.nlexid → p = (k, e))
    (junk tl tl' : List Byte) (hj : (lexkey e.nlexid).length + junk.length = 16) :
    ∃ pos, lidLookup (lidImage (lidTree (fileAll l)) ++ tl') junk e.nlexid = some (some pos) ∧
      ∀ (σ ρ : Type) (output : Nat → Nat → List Byte → List Byte → σ → Option (Option ρ × σ)) (s : σ),
        let img := stemImage (fileAll l) ++ tl
        getTrack .u8 (selectView output (img.length - pos)) (some (img.length - pos)) 48 img [] s
          = output e.nlexid e.oclass k e.stpost s := by
  obtain ⟨pos, h1, h2⟩ := lidLookup_present h hl junk tl' e.nlexid (by omega) ⟨_, hm, rfl⟩
  obtain ⟨k', e', h3, h4, _, _, h7⟩ := record_at h h2 tl
  have := huniq (k', e') h3 h4
  simp only [Prod.mk.injEq] at this
  obtain ⟨rfl, rfl⟩ := this
  exact ⟨pos, h1, h7⟩

/-- Non-vacuity of C07/C08 on the sample dictionary (id 65536 has two zero bytes in its key). -/
example : ∃ pos, lidLookup (lidImage (lidTree (fileAll sample))) (List.replicate 13 1) 65536 = some (some pos) ∧
    getTrack (ρ := Nat) .u8 (selectView (fun id cls k post (_ : Unit) => some (some (id, cls, k, post)) |>.map
      (fun r => (r.map (fun x => x.1 + x.2.1 + x.2.2.1.length), ())))
      ((stemImage (fileAll sample)).length - pos)) (some ((stemImage (fileAll sample)).length - pos)) 48
      (stemImage (fileAll sample)) [] () = some (some (65536 + 1 + 3), ()) := by
  obtain ⟨pos, h1, h2⟩ := C08_by_id sample_dictOk sample_lidOk [100, 111, 103] ⟨0, 115, 65536, 1, []⟩
    (by decide) (by decide) (List.replicate 13 1) [] [] (by decide)
  simp only [List.append_nil] at h1 h2
  exact ⟨pos, h1, h2 _ _ _ _⟩

example : lidLookup (lidImage (lidTree (fileAll sample))) (List.replicate 13 0) 65537 = some none :=
  by simpa using (C07_lid_lookup_partial sample_dictOk sample_lidOk (List.replicate 13 0) [] [] 65537
    (by decide) (by decide)).1 (by decide)

end Libmorph
