import Verif.Lemmas.RusSame
import Verif.Lemmas.CapAny
import Verif.Lemmas.OrderLid
/-
Two Russian dictionaries compiled from the same articles in two orders.
-/
namespace Libmorph
open Spec

variable {A A' : List Byte} {D D' : RusDict} {st st' : RusState}

theorem same_class (t : TwoOrders D D') (h : RusOk A D st) (h' : RusOk A' D' st') {a : RusArticle} (ha : a ∈ D.arts) :
    SameClass (st.images D.mtab) (st'.images D'.mtab) (st.infoFor a) (st'.infoFor a) := by
  have ha' : a ∈ D'.arts := t.arts.perm.mem_iff.1 ha
  have hz : st.tabFor a = 0 ↔ st'.tabFor a = 0 := by rw [rus_tab_zero h ha, rus_tab_zero h' ha']
  refine ⟨?_, ?_, rfl, hz, ?_⟩
  · exact t.mtab.symm
  · show (st.classFor a).stored = (st'.classFor a).stored
    rw [RusStem.stored, RusStem.stored]
    by_cases e : st.tabFor a = 0
    · rw [if_neg (by simpa [RusState.classFor] using e), if_neg (c := (st'.classFor a).tfoffs ≠ 0) (by simpa [RusState.classFor] using hz.1 e)]
      rfl
    · rw [if_pos (by simpa [RusState.classFor] using e), if_pos (c := (st'.classFor a).tfoffs ≠ 0) (by simpa [RusState.classFor] using fun k => e (hz.2 k))]
      rfl
  · have e1 := rus_info_flex h ha
    have e2 := rus_info_flex h' ha'
    by_cases hi : a.Inflected
    · right
      rw [if_pos hi] at e1 e2
      obtain ⟨_, _, img, r, i1, i2, i3⟩ := rus_table_at h ha hi
      obtain ⟨_, _, img', r', j1, j2, j3⟩ := rus_table_at h' ha' hi
      rw [t.ftab, i1] at j1
      obtain rfl := Option.some.inj j1
      obtain ⟨B, hB⟩ := h.tables a ha hi
      refine ⟨img, r, r', closed_table hB (h.long a ha hi) i1 (by omega), ?_, ?_⟩
      · rw [show (st.images D.mtab).flexTree = st.plain from rfl, e1, i3]
      · rw [show (st'.images D'.mtab).flexTree = st'.plain from rfl, e2, j3]
    · left
      rw [if_neg hi] at e1 e2
      have hm : ¬ a.Mapped := by rwa [mapped_iff h ha]
      refine ⟨e1, e2, ?_⟩
      show st.tabFor a = st'.tabFor a
      simp [RusState.tabFor, hm]

theorem entry_recl (t : TwoOrders D D') (a : RusArticle) : (st'.entryFor D' a).recl (fun _ => 0) = (st.entryFor D a).recl (fun _ => 0) := by
  simp only [RusState.entryFor, Entry.recl, t.ftab, t.mtab]

/-- The scan of a word meets the same articles, in the same order, with the same parts of the word. -/
theorem rusScan_two (t : TwoOrders D D') (h : RusOk A D st) (h' : RusOk A' D' st') (w junk : List Byte) (hw : w.length < 48) (scheme dwsets : Nat)
    (hs : scheme >>> 16 = w.length) {σ ρ : Type} (target target' : RusTarget σ ρ)
    (ht : ∀ id d d' inflex suffix grs s, SameClass (st.images D.mtab) (st'.images D'.mtab) d d' →
      target id d inflex suffix grs s = target' id d' inflex suffix grs s) (s : σ) :
    rusScan (st.images D.mtab) w junk scheme dwsets target s = rusScan (st'.images D'.mtab) w junk scheme dwsets target' s := by
  have hm : maxLevels = 64 := rfl
  rw [rusScan, rusScan, hs, show (st.images D.mtab).stemtree = stemImage (fileAll st.entries) from rfl,
    show (st'.images D'.mtab).stemtree = stemImage (fileAll st'.entries) from rfl, h.entries, h'.entries]
  refine scan_two (t.arts.mono fun a _ b _ hab => ⟨hab.1, hab.2.1.2.2.1, hab.2.1.2.2.2, hab.2.2⟩) (fun a _ => entry_recl t a) h.dict h'.dict w (0 :: junk)
    (by omega) _ _ ?_ s
  · intro a ha part s hwd
    have hlen : part.length ≤ w.length := by rw [hwd]; simp only [List.length_append]; omega
    exact rusMatch_same (rus_load h ha) (rus_load h' (t.arts.perm.mem_iff.1 ha)) (same_class t h h' ha) part _ _ (by omega) _ _ _
      (fun d d' grs s hd => ht _ _ _ _ _ _ _ hd) s

theorem rusPrepare_ok {w lo : List Byte} {dwsets scheme : Nat} (hparts : (wordParts rusTab w).length ≤ 8)
    (h : rusPrepare w dwsets = some (.ok (lo, scheme))) : lo.length < 48 ∧ scheme >>> 16 = lo.length := by
  by_cases hne : w = []
  · subst hne
    simp [rusPrepare, rusCanonic] at h
  · by_cases hlen : w.length < 48
    · rcases rusPrepare_eq w dwsets hne hlen hparts with ⟨e, _⟩ | ⟨s, e, e2, _⟩
      · rw [e] at h; simp at h
      · rw [e] at h
        simp only [Option.some.injEq, Except.ok.injEq, Prod.mk.injEq] at h
        obtain ⟨rfl, rfl⟩ := h
        rw [List.length_map]
        exact ⟨hlen, e2⟩
    · exfalso
      simp only [rusPrepare, rusCanonic, bind, Option.bind] at h
      rw [if_neg (fun h0 => hne (List.length_eq_zero_iff.1 h0))] at h
      split at h
      · simp at h
      · rename_i r hr
        cases r with
        | none => simp at h
        | some p =>
          have := (capGet_some rusTab rusTab_ok formLength (by decide) w p.1 p.2 hr).1
          exact hlen this

theorem two_check (t : TwoOrders D D') (h : RusOk A D st) (h' : RusOk A' D' st') (w junk : List Byte) (dwsets : Nat)
    (hparts : (wordParts rusTab w).length ≤ 8) : rusCheck (st.images D.mtab) junk w dwsets = rusCheck (st'.images D'.mtab) junk w dwsets := by
  rw [rusCheck, rusCheck]
  cases hp : rusPrepare w dwsets with
  | none => simp only [bind, Option.bind]
  | some r =>
    cases r with
    | error e => simp only [bind, Option.bind]
    | ok p =>
      obtain ⟨lo, scheme⟩ := p
      obtain ⟨k1, k2⟩ := rusPrepare_ok hparts hp
      simp only [bind, Option.bind]
      rw [rusScan_two (σ := Unit) (ρ := Int) t h h' lo junk k1 scheme dwsets k2 (fun _ _ _ _ _ s => some (some 1, s)) (fun _ _ _ _ _ s => some (some 1, s))
        (fun _ _ _ _ _ _ _ _ => rfl)]

theorem two_lemmatize (t : TwoOrders D D') (h : RusOk A D st) (h' : RusOk A' D' st') (w junk : List Byte) (dwsets : Nat)
    (hparts : (wordParts rusTab w).length ≤ 8) (L : Option (List Lemm)) (B : Option (List Byte)) (G : Option (List Gram)) :
    rusLemmatize (st.images D.mtab) junk w L B G dwsets = rusLemmatize (st'.images D'.mtab) junk w L B G dwsets := by
  rw [rusLemmatize, rusLemmatize]
  cases hp : rusPrepare w dwsets with
  | none => simp only [bind, Option.bind]
  | some r =>
    cases r with
    | error e => simp only [bind, Option.bind]
    | ok p =>
      obtain ⟨lo, scheme⟩ := p
      obtain ⟨k1, k2⟩ := rusPrepare_ok hparts hp
      simp only [bind, Option.bind]
      rw [rusScan_two t h h' lo junk k1 scheme dwsets k2 _ _ (fun id d d' inflex suffix grs s hd => hd.lemmCall dwsets id (stemOf lo junk inflex) suffix grs s)]

theorem two_findForms (t : TwoOrders D D') (h : RusOk A D st) (h' : RusOk A' D' st') (w junk : List Byte) (idform dwsets : Nat)
    (hparts : (wordParts rusTab w).length ≤ 8) (B : Option (List Byte)) :
    rusFindForms (st.images D.mtab) junk B w idform dwsets = rusFindForms (st'.images D'.mtab) junk B w idform dwsets := by
  rw [rusFindForms, rusFindForms]
  cases hp : rusPrepare w dwsets with
  | none => simp only [bind, Option.bind]
  | some r =>
    cases B with
    | none => simp only [bind, Option.bind]
    | some B =>
      cases r with
      | error e => simp only [bind, Option.bind]
      | ok p =>
        obtain ⟨lo, scheme⟩ := p
        obtain ⟨k1, k2⟩ := rusPrepare_ok hparts hp
        simp only [bind, Option.bind]
        rw [rusScan_two t h h' lo junk k1 scheme dwsets k2 _ _ (fun id d d' inflex suffix grs s hd => hd.formBuild idform (stemOf lo junk inflex) suffix s)]

/-- The number leads to the record of one and the same article in both dictionaries. -/
theorem rus_lid_two (t : TwoOrders D D') (h : RusOk A D st) (h' : RusOk A' D' st') (hi : RusIdsOk D st) (hi' : RusIdsOk D' st') (junk : List Byte)
    (id : Nat) (hj : (lexkey id).length + junk.length = 16) (hex : ∃ a ∈ D.arts, a.id = id) :
    ∃ pos a, a ∈ D.arts ∧ a.id = id ∧ lidLookup (st.images D.mtab).lidstree junk id = some (some pos) ∧
      lidLookup (st'.images D'.mtab).lidstree junk id = some (some pos) ∧
      (∃ rest, (st.images D.mtab).stemtree.drop pos = (st.entryFor D a).ser ++ rest) ∧
      (∃ rest, (st'.images D'.mtab).stemtree.drop pos = (st'.entryFor D' a).ser ++ rest) ∧
      (∀ (σ ρ : Type) (output : Nat → Nat → List Byte → List Byte → σ → Option (Option ρ × σ)) (s : σ),
        getTrack .u8 (selectView output ((st.images D.mtab).stemtree.length - pos))
          (some ((st.images D.mtab).stemtree.length - pos)) 48 (st.images D.mtab).stemtree [] s
          = output id (st.entryFor D a).oclass a.stem a.post s) ∧
      ∀ (σ ρ : Type) (output : Nat → Nat → List Byte → List Byte → σ → Option (Option ρ × σ)) (s : σ),
        getTrack .u8 (selectView output ((st'.images D'.mtab).stemtree.length - pos))
          (some ((st'.images D'.mtab).stemtree.length - pos)) 48 (st'.images D'.mtab).stemtree [] s
          = output id (st'.entryFor D' a).oclass a.stem a.post s := by
  have hl := hi.lid h
  have hl' := hi'.lid h'
  rw [h.entries] at hl
  rw [h'.entries] at hl'
  have key := lid_two (ent := st.entryFor D) (ent' := st'.entryFor D') (stem := RusArticle.stem) 
    (t.arts.mono fun a _ b _ hab => ⟨hab.1, hab.2.1.2.2.1, hab.2.1.2.2.2, hab.2.2⟩) (fun a _ => entry_recl t a) h.dict h'.dict hl hl' junk id (by omega) hex
  rw [← h.entries, ← h'.entries] at key
  exact key

theorem two_buildForm (t : TwoOrders D D') (h : RusOk A D st) (h' : RusOk A' D' st') (hi : RusIdsOk D st) (hi' : RusIdsOk D' st') (junk : List Byte)
    (id idform : Nat) (hid : id < 2 ^ 32) (hj : (lexkey id).length + junk.length = 16)
    (B : Option (List Byte)) : rusBuildForm (st.images D.mtab) junk B id idform = rusBuildForm (st'.images D'.mtab) junk B id idform := by
  simp only [rusBuildForm]
  cases B with
  | none => rfl
  | some B =>
    by_cases hB : B.length = 0
    · simp only [hB, if_true]
    · simp only [hB, if_false]
      by_cases hex : ∃ a ∈ D.arts, a.id = id
      · obtain ⟨pos, a, ha, -, h2, h2', -, -, h3, h3'⟩ := rus_lid_two t h h' hi hi' junk id hj hex
        simp only [h2, h2', bind, Option.bind_some, formLength, h3, h3', rusBuildClass, rus_load h ha, rus_load h' (t.arts.perm.mem_iff.1 ha),
          (same_class t h h' ha).formBuild]
      · have e1 := rus_lid_absent h hi junk id hid hj (fun a ha k => hex ⟨a, ha, k⟩)
        have e2 := rus_lid_absent h' hi' junk id hid hj (fun a ha k => hex ⟨a, t.arts.perm.mem_iff.2 ha, k⟩)
        simp only [e1, e2, bind, Option.bind_some]

/-- Part of speech read from the record of an article. -/
theorem rusWdInfo_at (h : RusOk A D st) {junk : List Byte} {id pos : Nat} {a : RusArticle} (ha : a ∈ D.arts) (h1 : a.id = id)
    (h2 : lidLookup (st.images D.mtab).lidstree junk id = some (some pos))
    (h3 : ∃ rest, (st.images D.mtab).stemtree.drop pos = (st.entryFor D a).ser ++ rest) :
    rusWdInfo (st.images D.mtab) junk id = some (1, some a.pos) := by
  obtain ⟨rest, h3⟩ := h3
  have hid32 := h.ids a ha
  have hoc : (st.entryFor D a).oclass < 2 ^ 15 := (rus_class_at h ha).1
  obtain ⟨r, w, e1, e2, e3⟩ := entry_fields (st.entryFor D a) hoc
  have hlen : 2 ≤ (st.entryFor D a).ser.length := by simp [Entry.ser]
  have hd : (st.images D.mtab).stemtree.drop (pos + 2) = putserial id ++ putword16 w ++ (r ++ rest) := by
    rw [← List.drop_drop, h3, List.drop_append_of_le_length hlen, e1]
    rw [show (st.entryFor D a).nlexid = id from h1]
    simp
  simp only [rusWdInfo, h2, bind, Option.bind_some, hd, List.append_assoc]
  rw [getserial_putserial (by omega)]
  simp only [Option.bind_some, getword16_putword16 e3, ne_eq, not_true_eq_false, if_false, e2, rus_load h ha, pure,
    rus_info_pos]

theorem two_wdInfo (t : TwoOrders D D') (h : RusOk A D st) (h' : RusOk A' D' st') (hi : RusIdsOk D st) (hi' : RusIdsOk D' st') (junk : List Byte)
    (id : Nat) (hid : id < 2 ^ 32) (hj : (lexkey id).length + junk.length = 16) :
    rusWdInfo (st.images D.mtab) junk id = rusWdInfo (st'.images D'.mtab) junk id := by
  by_cases hex : ∃ a ∈ D.arts, a.id = id
  · obtain ⟨pos, a, ha, h1, h2, h2', h4, h4', -, -⟩ := rus_lid_two t h h' hi hi' junk id hj hex
    rw [rusWdInfo_at h ha h1 h2 h4, rusWdInfo_at h' (t.arts.perm.mem_iff.1 ha) h1 h2' h4']
  · have e1 := rus_lid_absent h hi junk id hid hj (fun a ha k => hex ⟨a, ha, k⟩)
    have e2 := rus_lid_absent h' hi' junk id hid hj (fun a ha k => hex ⟨a, t.arts.perm.mem_iff.2 ha, k⟩)
    simp only [rusWdInfo, e1, e2, bind, Option.bind_some]

end Libmorph
