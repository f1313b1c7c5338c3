import Verif.Lemmas.RusForms
import Verif.Props.C07
/-
The functions of the Russian interface that build forms, in terms of articles.
-/
namespace Libmorph
open Libmorph.Spec
variable {A : List Byte} {D : RusDict} {st : RusState}

/-! ### The specification determines the forms -/

theorem pairwise_ext {l m : List (List Byte)} (hl : l.Pairwise fun p q => bytesLt q p = true)
    (hm : m.Pairwise fun p q => bytesLt q p = true) (h : ∀ e, e ∈ l ↔ e ∈ m) : l = m := by
  have asym : ∀ a b : List Byte, bytesLt a b = true → bytesLt b a = true → False := by
    intro a
    induction a with
    | nil => intro b h1 h2; cases b <;> simp [bytesLt] at h1 h2
    | cons x a ih =>
      intro b h1 h2
      cases b with
      | nil => simp [bytesLt] at h1
      | cons y b =>
        simp only [bytesLt] at h1 h2
        by_cases hxy : x < y
        · rw [if_neg (by omega), if_pos hxy] at h2; simp at h2
        · rw [if_neg hxy] at h1
          by_cases hyx : y < x
          · rw [if_pos hyx] at h1; simp at h1
          · rw [if_neg hyx] at h1
            rw [if_neg hyx, if_neg hxy] at h2
            exact ih b h1 h2
  have irr : ∀ a : List Byte, bytesLt a a = true → False := fun a h => asym a a h h
  induction l generalizing m with
  | nil =>
    cases m with
    | nil => rfl
    | cons b m => exact absurd ((h b).2 (by simp)) (by simp)
  | cons a l ih =>
    cases m with
    | nil => exact absurd ((h a).1 (by simp)) (by simp)
    | cons b m =>
      rw [List.pairwise_cons] at hl hm
      have hab : a = b := by
        rcases List.mem_cons.1 ((h a).1 (by simp)) with h1 | h1
        · exact h1
        · rcases List.mem_cons.1 ((h b).2 (by simp)) with h2 | h2
          · exact h2.symm
          · exact (asym _ _ (hm.1 a h1) (hl.1 b h2)).elim
      subst hab
      rw [ih hl.2 hm.2]
      intro e
      constructor
      · intro he
        rcases List.mem_cons.1 ((h e).1 (by simp [he])) with rfl | h1
        · exact (irr _ (hl.1 _ he)).elim
        · exact h1
      · intro he
        rcases List.mem_cons.1 ((h e).2 (by simp [he])) with rfl | h1
        · exact (irr _ (hm.1 _ he)).elim
        · exact h1

theorem altFor_unique {a : RusArticle} {fx : FlexInfo} {x y : List Byte} (hx : D.AltFor a fx x) (hy : D.AltFor a fx y) : x = y := by
  unfold RusDict.AltFor at hx hy
  split at hx
  · rename_i h0; rw [if_pos h0] at hy; rw [hx, hy]
  · rename_i h0
    rw [if_neg h0] at hy
    rcases hx.2 y hy.1 with h1 | h1
    · exact h1.symm
    · rcases hy.2 x hx.1 with h2 | h2
      · exact h2
      · have := pairwise_ext (l := [y, x]) (m := [x, y]) (by simpa using h1) (by simpa using h2) (by intro e; simp [or_comm])
        simp at this; exact this.2

theorem formsOf_unique {a : RusArticle} {fx : FlexInfo} {fs gs : List (List Byte)} (h1 : D.FormsOf a fx fs) (h2 : D.FormsOf a fx gs) :
    fs = gs := by
  rcases h1 with ⟨x, es, a1, a2, rfl⟩ | ⟨a1, rfl⟩
  · rcases h2 with ⟨y, es', b1, b2, rfl⟩ | ⟨b1, rfl⟩
    · have hxy := altFor_unique a1 b1
      subst hxy
      rw [pairwise_ext a2.order b2.order (fun e => (a2.mem e).trans (b2.mem e).symm)]
    · exact absurd a1 (b1 x)
  · rcases h2 with ⟨y, es', b1, b2, rfl⟩ | ⟨b1, rfl⟩
    · exact absurd b1 (a1 y)
    · rfl

theorem foundForms_unique {a : RusArticle} {i : Nat} {fs gs : List (List Byte)} (h1 : D.FoundForms a i fs) (h2 : D.FoundForms a i gs) :
    fs = gs := by
  unfold RusDict.FoundForms at h1 h2
  split at h1
  · rename_i h0
    rw [if_pos h0] at h2
    split at h1
    · rename_i h3; rw [if_pos h3] at h2; rw [h1, h2]
    · rename_i h3; rw [if_neg h3] at h2; exact formsOf_unique h1 h2
  · rename_i h0; rw [if_neg h0] at h2; rw [h1, h2]

theorem builtForms_unique {a : RusArticle} {i : Nat} {fs gs : List (List Byte)} (h1 : D.BuiltForms a i fs) (h2 : D.BuiltForms a i gs) :
    fs = gs := by
  unfold RusDict.BuiltForms at h1 h2
  split at h1
  · rename_i h0; rw [if_pos h0] at h2; rw [h1, h2]
  · rename_i h0; rw [if_neg h0] at h2; exact foundForms_unique h1 h2

/-! ### FindForms -/

theorem rusStemOf {lw junk : List Byte} {r : RusReading} (hr : D.Proper lw r) :
    stemOf lw junk ⟨r.alt ++ r.ending ++ (r.art.post ++ 0 :: junk), (r.alt ++ r.ending).length⟩ = r.art.stem := by
  rw [hr.word, stemOf]
  have : ((r.art.stem ++ r.alt ++ r.ending ++ r.art.post ++ 0 :: junk).length
      - (r.alt ++ r.ending ++ (r.art.post ++ 0 :: junk)).length) = r.art.stem.length := by
    simp only [List.length_append]; omega
  simp only [this]
  simp [List.append_assoc]

theorem rusHeard_readings {w : List Byte} {dwsets : Nat} {H : List RusReading} (hH : RusScanOf D st (w.map rusTab.lower) H) :
    D.Readings (rusAdmits w dwsets) (w.map rusTab.lower) (rusHeard H w dwsets) := hH.readings _

theorem rusFindForms_heard (h : RusOk A D st) (w junk : List Byte) (dwsets i : Nat)
    (hne : w ≠ []) (hlen : w.length < 48) (hparts : (wordParts rusTab w).length ≤ 8)
    {H : List RusReading} (hH : RusScanOf D st (w.map rusTab.lower) H) (B : List Byte) (hB : B ≠ [])
    (F : RusArticle → List (List Byte)) (hF : ∀ a ∈ D.arts, D.FoundForms a i (F a)) :
    FormOutcome (rusFindForms (st.images D.mtab) junk (some B) w i dwsets)
      ((rusHeard H w dwsets).flatMap fun r => (F r.art).map (rusPrinted r.art.demand))
      (∀ r ∈ rusHeard H w dwsets, (packed (F r.art)).length ≤ 256) B := by
  have hp := rusHeard_readings (dwsets := dwsets) hH
  have hr := rus_word_scan w junk dwsets hne hlen hparts hH
  generalize rusHeard H w dwsets = H at hp hr ⊢
  have hB0 : ¬ B.length = 0 := fun h0 => hB (List.length_eq_zero_iff.1 h0)
  rcases hr with ⟨h1, rfl⟩ | ⟨s, h1, h2⟩
  · have : rusFindForms (st.images D.mtab) junk (some B) w i dwsets = some (0, some B) := by
      simp [rusFindForms, h1, hB0]
    rw [this]
    refine ⟨fun _ _ => rfl, fun h0 => absurd rfl h0, ?_⟩
    rintro (hb | hb)
    · simp at hb
    · simp at hb
  · have hstep : ∀ r ∈ H, FormStep ((fun (r : RusReading) s => rusFormBuild (st.images D.mtab) i
          (stemOf (w.map rusTab.lower) junk ⟨r.alt ++ r.ending ++ (r.art.post ++ 0 :: junk), (r.alt ++ r.ending).length⟩)
          r.art.post (st.heardInfo r.art) s) r) (F r.art) ((F r.art).map (rusPrinted r.art.demand)) B := by
      intro r hr
      have hpr := (hp.proper r hr).1
      simp only [rusStemOf hpr]
      obtain ⟨fs, f1, f2, f3⟩ := rusFormBuild_found h hpr.art i
      rw [foundForms_unique (hF _ hpr.art) f1]
      exact f3 B
    have hrun := formRun_outcome_gen B (fun r => F r.art) (fun r => (F r.art).map (rusPrinted r.art.demand)) H _ hstep
    have hb : rusFindForms (st.images D.mtab) junk (some B) w i dwsets
        = (runList (fun (r : RusReading) s => rusFormBuild (st.images D.mtab) i
          (stemOf (w.map rusTab.lower) junk ⟨r.alt ++ r.ending ++ (r.art.post ++ 0 :: junk), (r.alt ++ r.ending).length⟩)
          r.art.post (st.heardInfo r.art) s)
          H ⟨⟨some B, 0⟩, 0⟩).map fun r => ((formResult r).1, (formResult r).2.buf) := by
      simp only [rusFindForms, h1, bind, Option.bind_some, if_neg hB0, h2, pure]
      cases runList (fun (r : RusReading) s => rusFormBuild (st.images D.mtab) i
          (stemOf (w.map rusTab.lower) junk ⟨r.alt ++ r.ending ++ (r.art.post ++ 0 :: junk), (r.alt ++ r.ending).length⟩)
          r.art.post (st.heardInfo r.art) s)
          H ⟨⟨some B, 0⟩, 0⟩ <;> rfl
    rw [hb]
    exact hrun

/-- Every article has its forms. -/
theorem foundForms_exists (h : RusOk A D st) (i : Nat) :
    ∃ F : RusArticle → List (List Byte), ∀ a ∈ D.arts, D.FoundForms a i (F a) := by
  classical
  refine ⟨fun a => if ha : a ∈ D.arts then (rusFormBuild_found h ha i).choose else [], fun a ha => ?_⟩
  simp only [dif_pos ha]
  exact (rusFormBuild_found h ha i).choose_spec.1

theorem builtForms_exists (h : RusOk A D st) {a : RusArticle} (ha : a ∈ D.arts) (i : Nat) : ∃ fs, D.BuiltForms a i fs := by
  obtain ⟨fs, f1, _⟩ := rusFormBuild_built h ha i
  exact ⟨fs, f1⟩

/-! ### BuildForm, GetWdInfo -/

theorem RusOk.dict' (h : RusOk A D st) : DictOk A st.entries := by rw [h.entries]; exact h.dict

theorem RusIdsOk.lid (hi : RusIdsOk D st) (h : RusOk A D st) : LidOk st.entries := by
  refine ⟨?_, hi.size⟩
  intro p hp
  rw [h.entries] at hp
  obtain ⟨a, ha, rfl⟩ := List.mem_map.1 hp
  exact hi.ids a ha

theorem rus_lid_absent (h : RusOk A D st) (hi : RusIdsOk D st) (junk : List Byte) (id : Nat)
    (hid : id < 2 ^ 32) (hj : (lexkey id).length + junk.length = 16) (hno : ∀ a ∈ D.arts, a.id ≠ id) :
    lidLookup (st.images D.mtab).lidstree junk id = some none := by
  have := (C07_lid_lookup_partial h.dict' (hi.lid h) junk [] [] id hid hj).1 (by
    intro p hp
    rw [h.entries] at hp
    obtain ⟨a, ha, rfl⟩ := List.mem_map.1 hp
    exact hno a ha)
  rw [List.append_nil] at this
  exact this

theorem rus_lid_present (h : RusOk A D st) (hi : RusIdsOk D st) (junk : List Byte) (id : Nat)
    (hj : (lexkey id).length + junk.length = 16) (hex : ∃ a ∈ D.arts, a.id = id) :
    ∃ pos a, a ∈ D.arts ∧ a.id = id ∧ lidLookup (st.images D.mtab).lidstree junk id = some (some pos) ∧
      (∃ rest, (st.images D.mtab).stemtree.drop pos = (st.entryFor D a).ser ++ rest) ∧
      ∀ (σ ρ : Type) (output : Nat → Nat → List Byte → List Byte → σ → Option (Option ρ × σ)) (s : σ),
        getTrack .u8 (selectView output ((st.images D.mtab).stemtree.length - pos))
          (some ((st.images D.mtab).stemtree.length - pos)) 48 (st.images D.mtab).stemtree [] s
          = output id (st.entryFor D a).oclass a.stem a.post s := by
  obtain ⟨a0, ha0, hid0⟩ := hex
  obtain ⟨pos, h1, h2⟩ := lidLookup_present h.dict' (hi.lid h) junk [] id (by omega)
    ⟨(a0.stem, st.entryFor D a0), by rw [h.entries]; exact List.mem_map.2 ⟨a0, ha0, rfl⟩, hid0⟩
  obtain ⟨k, e, h3, h4, h5, h6, h7⟩ := record_at h.dict' h2 []
  rw [h.entries] at h3
  obtain ⟨a, ha, he⟩ := List.mem_map.1 h3
  simp only [Prod.mk.injEq] at he
  obtain ⟨rfl, rfl⟩ := he
  refine ⟨pos, a, ha, h4, by simpa [RusState.images] using h1, by simpa [RusState.images] using h6, ?_⟩
  intro σ ρ output s
  have := h7 σ ρ output s
  rw [List.append_nil] at this
  rw [show (st.images D.mtab).stemtree = stemImage (fileAll st.entries) from rfl, this, h4]
  rfl

theorem rusBuildForm_eq (h : RusOk A D st) (hi : RusIdsOk D st) (junk : List Byte) (id i : Nat)
    (hj : (lexkey id).length + junk.length = 16) (hex : ∃ a ∈ D.arts, a.id = id) (B : List Byte) (hB : B ≠ []) :
    ∃ a ∈ D.arts, a.id = id ∧ ∃ fs, D.BuiltForms a i fs ∧ FormOutcome (rusBuildForm (st.images D.mtab) junk (some B) id i)
      (fs.map (rusPrinted a.demand)) ((packed fs).length ≤ 256) B := by
  obtain ⟨pos, a, ha, h1, h2, -, h3⟩ := rus_lid_present h hi junk id hj hex
  obtain ⟨fs, f1, f2, f3⟩ := rusFormBuild_built h ha i
  refine ⟨a, ha, h1, fs, f1, ?_⟩
  have hrun := formRun_outcome_gen B (fun _ : Unit => fs) (fun _ => fs.map (rusPrinted a.demand)) [()]
    (fun _ s => rusFormBuild (st.images D.mtab) i a.stem a.post (st.infoFor a) s) (fun _ _ => f3 B)
  have hb : rusBuildForm (st.images D.mtab) junk (some B) id i
      = (runList (fun (_ : Unit) s => rusFormBuild (st.images D.mtab) i a.stem a.post (st.infoFor a) s)
          [()] ⟨⟨some B, 0⟩, 0⟩).map fun r => ((formResult r).1, (formResult r).2.buf) := by
    simp only [rusBuildForm, if_neg (show ¬ B.length = 0 from fun h0 => hB (List.length_eq_zero_iff.1 h0)), h2, h3, bind,
      Option.bind_some, rusBuildClass, rus_load h ha, pure, runList, formLength]
    cases rusFormBuild (st.images D.mtab) i a.stem a.post (st.infoFor a) ⟨⟨some B, 0⟩, 0⟩ with
    | none => rfl
    | some z => obtain ⟨q, s⟩ := z; cases q <;> rfl
  rw [hb]
  simpa using hrun

/-- What stands in the record of an entry behind the first-letter bounds. -/
theorem entry_fields (e : Entry) (hoc : e.oclass < 2 ^ 15) : ∃ r w, e.ser.drop 2 = putserial e.nlexid ++ putword16 w ++ r ∧
    w &&& 0x7fff = e.oclass ∧ w < 65536 := by
  rw [Entry.ser]
  refine ⟨(if (e.oclass ||| if e.stpost.isEmpty = true then 0 else 0x8000) &&& 0x8000 ≠ 0 then
        putserial e.stpost.length ++ e.stpost else []), e.oclass ||| if e.stpost.isEmpty = true then 0 else 0x8000, ?_, ?_, ?_⟩
  · simp only [List.cons_append, List.nil_append, List.append_assoc, List.drop_succ_cons, List.drop_zero]
  · have hm : ∀ x, x &&& 0x7fff = x % 2 ^ 15 := fun x => by
      rw [show (0x7fff : Nat) = 2 ^ 15 - 1 by rfl, Nat.and_two_pow_sub_one_eq_mod]
    split
    · rw [Nat.or_zero, hm]; exact Nat.mod_eq_of_lt hoc
    · rw [Nat.or_comm]
      have := Nat.two_pow_add_eq_or_of_lt (i := 15) (b := e.oclass) hoc 1
      rw [show 2 ^ 15 * 1 = 0x8000 by rfl] at this
      rw [← this, hm]; omega
  · split
    · rw [Nat.or_zero]; omega
    · exact Nat.or_lt_two_pow (n := 16) (by omega) (by omega)

theorem rusWdInfo_eq (h : RusOk A D st) (hi : RusIdsOk D st) (junk : List Byte) (id : Nat)
    (hj : (lexkey id).length + junk.length = 16) (hex : ∃ a ∈ D.arts, a.id = id) :
    ∃ a ∈ D.arts, a.id = id ∧ rusWdInfo (st.images D.mtab) junk id = some (1, some a.pos) := by
  obtain ⟨pos, a, ha, h1, h2, ⟨rest, h3⟩, -⟩ := rus_lid_present h hi junk id hj hex
  refine ⟨a, ha, h1, ?_⟩
  have hid32 := h.ids a ha
  have hoc : (st.entryFor D a).oclass < 2 ^ 15 := (rus_class_at h ha).1
  obtain ⟨r, w, e1, e2, e3⟩ := entry_fields (st.entryFor D a) hoc
  have hlen : 2 ≤ (st.entryFor D a).ser.length := by simp [Entry.ser]
  have hd : (st.images D.mtab).stemtree.drop (pos + 2) = putserial id ++ putword16 w ++ (r ++ rest) := by
    rw [← List.drop_drop, h3, List.drop_append_of_le_length hlen, e1]
    rw [show (st.entryFor D a).nlexid = id from h1]
    simp
  simp only [rusWdInfo, h2, bind, Option.bind_some, hd, List.append_assoc]
  rw [getserial_putserial (by omega)]
  simp only [Option.bind_some, getword16_putword16 e3, ne_eq, not_true_eq_false, if_false, e2, rus_load h ha, pure,
    rus_info_pos]

end Libmorph
