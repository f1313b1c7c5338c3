import Verif.Lemmas.OrderLid
import Verif.Lemmas.EngApi
import Verif.Lemmas.EngLemm
import Verif.Lemmas.CapAny
import Verif.Lemmas.RusFormsApi
/-
Two English dictionaries compiled from the same articles in two orders.
-/
namespace Libmorph
open Spec

/-- Two classes with the same description and the same table of endings. -/
structure SameInfo (im im' : Images) (c c' : StemInfo) : Prop where
  wdinfo : c.wdinfo = c'.wdinfo
  zero : c.tfoffs = 0 ↔ c'.tfoffs = 0
  table : c.tfoffs ≠ 0 → ∃ (items : List Flex) (r r' : List Byte), (∀ x ∈ items, x.szflex.length < 256) ∧ items.length < 256 ∧
    im.flexTree.drop c.tfoffs = FTable.ser ⟨0, 0, 0, items⟩ ++ r ∧ im'.flexTree.drop c'.tfoffs = FTable.ser ⟨0, 0, 0, items⟩ ++ r'

theorem getFlexLoop_tail (cap : Nat) (pre suf : List Byte) (i : Nat) (tl tl' : List Byte) (items : List Flex)
    (hlen : ∀ x ∈ items, x.szflex.length < 256) (out : List Byte) (nt : Int) :
    getFlexLoop cap pre suf i items.length ((items.map Flex.ser).flatten ++ tl) out nt =
      getFlexLoop cap pre suf i items.length ((items.map Flex.ser).flatten ++ tl') out nt := by
  induction items generalizing out nt with
  | nil => rfl
  | cons x items ih =>
    have hx := hlen x (by simp)
    have hd : ∀ t : List Byte, (x.szflex ++ t).drop x.szflex.length = t := fun t => List.drop_left
    have ht : ∀ t : List Byte, (x.szflex ++ t).take x.szflex.length = x.szflex := fun t => List.take_left
    have hl : ∀ t : List Byte, ¬ (x.szflex ++ t).length < x.szflex.length := fun t => by simp
    have ih' := fun out nt => ih (fun y hy => hlen y (by simp [hy])) out nt
    simp only [List.length_cons, List.map_cons, List.flatten_cons, Flex.ser, List.cons_append, List.append_assoc, getFlexLoop, getbyte, bind, Option.bind_some,
      Nat.mod_eq_of_lt hx, hd, ht, hl, if_false, ih']

section
variable {im im' : Images} {c c' : StemInfo}

theorem SameInfo.wordForms (h : SameInfo im im' c c') (cap : Nat) (pre suf : List Byte) (i : Nat) (out : List Byte) :
    getWordForms im.flexTree cap pre suf c i out = getWordForms im'.flexTree cap pre suf c' i out := by
  rw [getWordForms, getWordForms]
  by_cases h0 : c.tfoffs = 0
  · simp only [StemInfo.flexTable, h0, h.zero.1 h0, ne_eq, not_true_eq_false, if_false]
  · obtain ⟨items, r, r', h1, h2, h3, h4⟩ := h.table h0
    have h0' : c'.tfoffs ≠ 0 := fun k => h0 (h.zero.2 k)
    simp only [StemInfo.flexTable, ne_eq, h0, h0', not_false_eq_true, if_true, h3, h4, FTable.ser, List.cons_append, getbyte, bind, Option.bind_some,
      Nat.mod_eq_of_lt h2, getFlexLoop_tail cap pre suf i r r' items h1]

theorem SameInfo.dictLoop (h : SameInfo im im' c c') (cap : Nat) (pre suf : List Byte) : ∀ (n i : Nat) (out : List Byte),
    dictFormsLoop im.flexTree cap pre suf c n i out = dictFormsLoop im'.flexTree cap pre suf c' n i out
  | 0, _, _ => rfl
  | n + 1, i, out => by
    simp only [dictFormsLoop, h.wordForms, h.dictLoop cap pre suf n]

theorem SameInfo.formBuild (h : SameInfo im im' c c') (idform : Nat) (stem suffix : List Byte) (s : FormState) :
    formBuild im.flexTree idform stem suffix c s = formBuild im'.flexTree idform stem suffix c' s := by
  have hz : (c.tfoffs ≠ 0) = (c'.tfoffs ≠ 0) := propext (not_congr h.zero)
  simp only [Libmorph.formBuild, h.wordForms, h.wdinfo, hz]

theorem SameInfo.lemmCall (h : SameInfo im im' c c') (nlexid : Nat) (stem suffix : List Byte) (grs : List Gram) (s : LemmState) :
    lemmCall im.flexTree nlexid c stem suffix grs s = lemmCall im'.flexTree nlexid c' stem suffix grs s := by
  have hz : (c.tfoffs ≠ 0) = (c'.tfoffs ≠ 0) := propext (not_congr h.zero)
  have hf : lemmForm im.flexTree stem suffix c = lemmForm im'.flexTree stem suffix c' := by
    funext merge s
    simp only [lemmForm, getDictForms, h.dictLoop, h.wdinfo]
  have hg : setGram c = setGram c' := by
    funext g
    simp only [setGram, h.wdinfo, hz]
  simp only [Libmorph.lemmCall, hf, hg]

end

section
variable {A A' : List Byte} {as as' : List Article}

theorem eng_tables (h : EngOk A as) {a : Article} (ha : a ∈ as) (hinf : a.Inflected) :
    ((engBuild as).tableFor a).items = (parseTable (a.flex.map engTab.lower)).items ∧
    ((engBuild as).tableFor a).clower = (parseTable (a.flex.map engTab.lower)).clower ∧
    ((engBuild as).tableFor a).cupper = (parseTable (a.flex.map engTab.lower)).cupper := by
  have hlen : 4 + tabsLen (engBuild as).box.tabs < 65536 := by rw [← box_image_length]; exact h.flexes
  have := box_table_at (stateInv_build as).box hlen ((engBuild_resolved as ha).2 hinf)
  exact ⟨this.1, this.2.1, this.2.2.1⟩

theorem eng_same (h : EngOk A as) (h' : EngOk A' as') {a : Article} (ha : a ∈ as) (ha' : a ∈ as') :
    SameInfo (engBuild as).images (engBuild as').images ((engBuild as).infoFor a) ((engBuild as').infoFor a) := by
  refine ⟨rfl, ?_, ?_⟩
  · rw [← not_iff_not]
    exact (h.tfoffs ha).trans (h'.tfoffs ha').symm
  · intro h0
    have hinf := (h.tfoffs ha).1 h0
    obtain ⟨-, r, t1⟩ := (h.loads ha).2.table hinf
    obtain ⟨-, r', t1'⟩ := (h'.loads ha').2.table hinf
    have ht := (h.loads ha).2.tableOf hinf
    have he : ∀ t : FTable, t.ser = FTable.ser ⟨0, 0, 0, t.items⟩ := fun t => rfl
    refine ⟨((engBuild as).tableFor a).items, r, r', ?_, ?_, by rw [t1, he], ?_⟩
    · intro x hx
      rw [ht.perm.mem_iff, List.mem_map] at hx
      obtain ⟨p, hp, rfl⟩ := hx
      exact (h.ends a ha p hp).1
    · rw [ht.perm.length_eq, List.length_map]; exact h.few a ha
    · rw [t1', he, (eng_tables h' ha' hinf).1, (eng_tables h ha hinf).1]

theorem eng_entry_recl (h : EngOk A as) (h' : EngOk A' as') {a : Article} (ha : a ∈ as) (ha' : a ∈ as') :
    ((engBuild as').entryFor a).recl (fun _ => 0) = ((engBuild as).entryFor a).recl (fun _ => 0) := by
  have hc : ((engBuild as').tableFor a).clower = ((engBuild as).tableFor a).clower ∧ ((engBuild as').tableFor a).cupper = ((engBuild as).tableFor a).cupper := by
    by_cases hinf : a.Inflected
    · obtain ⟨-, e1, e2⟩ := eng_tables h ha hinf
      obtain ⟨-, e3, e4⟩ := eng_tables h' ha' hinf
      rw [e1, e2, e3, e4]; exact ⟨rfl, rfl⟩
    · simp [EngState.tableFor, hinf]
  simp only [EngState.entryFor, Entry.recl, hc]

theorem engScan_two (t : Moved Article.Clash as as') (h : EngOk A as) (h' : EngOk A' as') (w junk : List Byte) (hw : w.length < 48) (scheme dwsets : Nat)
    (hs : scheme >>> 16 = w.length) {σ ρ : Type} (target target' : Target σ ρ)
    (ht : ∀ id d d' inflex suffix grs s, SameInfo (engBuild as).images (engBuild as').images d d' →
      target id d inflex suffix grs s = target' id d' inflex suffix grs s) (s : σ) :
    scanWord (engBuild as).images w junk scheme dwsets target s = scanWord (engBuild as').images w junk scheme dwsets target' s := by
  have hm : maxLevels = 64 := rfl
  rw [scanWord, scanWord, hs, show (engBuild as).images.stemtree = stemImage (fileAll (engBuild as).entries) from rfl,
    show (engBuild as').images.stemtree = stemImage (fileAll (engBuild as').entries) from rfl]
  have d := h.dict
  have d' := h'.dict
  rw [engBuild_entries] at d d' ⊢
  rw [engBuild_entries as']
  refine scan_two (t.mono fun a _ b _ hab => ⟨hab.1, hab.2.1.2.2.1, hab.2.1.2.2.2, hab.2.2⟩) (fun a ha => eng_entry_recl h h' ha (t.perm.mem_iff.1 ha)) d d' w (0 :: junk)
    (by omega) _ _ ?_ s
  intro a ha part s hwd
  have ha' := t.perm.mem_iff.1 ha
  have e1 := matchClass_article h ha (scheme % 65536) dwsets target part (((engBuild as).entryFor a).stpost ++ 0 :: junk) ((engBuild as).entryFor a).stpost s
  have e2 := matchClass_article h' ha' (scheme % 65536) dwsets target' part (((engBuild as).entryFor a).stpost ++ 0 :: junk) ((engBuild as).entryFor a).stpost s
  rw [show ((engBuild as).entryFor a).nlexid = a.id from rfl, e1, e2, ht _ _ _ _ _ _ _ (eng_same h h' ha ha')]

theorem prepare_ok {w lo : List Byte} {dwsets scheme : Nat} (hparts : (wordParts engTab w).length ≤ 8)
    (h : prepare w dwsets = some (.ok (lo, scheme))) : lo.length < 48 ∧ scheme >>> 16 = lo.length := by
  by_cases hne : w = []
  · subst hne
    simp [prepare, toCanonic] at h
  · by_cases hlen : w.length < 48
    · rcases prepare_eq w dwsets hne hlen hparts with ⟨e, _⟩ | ⟨s, e, e2, _⟩
      · rw [e] at h; simp at h
      · rw [e] at h
        simp only [Option.some.injEq, Except.ok.injEq, Prod.mk.injEq] at h
        obtain ⟨rfl, rfl⟩ := h
        rw [List.length_map]
        exact ⟨hlen, e2⟩
    · exfalso
      simp only [prepare, toCanonic, bind, Option.bind] at h
      rw [if_neg (fun h0 => hne (List.length_eq_zero_iff.1 h0))] at h
      split at h
      · simp at h
      · rename_i r hr
        cases r with
        | none => simp at h
        | some p =>
          have := (capGet_some engTab engTab_ok formLength (by decide) w p.1 p.2 hr).1
          exact hlen this

theorem eng_two_check (t : Moved Article.Clash as as') (h : EngOk A as) (h' : EngOk A' as') (w junk : List Byte) (dwsets : Nat)
    (hparts : (wordParts engTab w).length ≤ 8) : checkWord (engBuild as).images junk w dwsets = checkWord (engBuild as').images junk w dwsets := by
  rw [checkWord, checkWord]
  cases hp : prepare w dwsets with
  | none => simp only [bind, Option.bind]
  | some r =>
    cases r with
    | error e => simp only [bind, Option.bind]
    | ok p =>
      obtain ⟨lo, scheme⟩ := p
      obtain ⟨k1, k2⟩ := prepare_ok hparts hp
      simp only [bind, Option.bind]
      rw [engScan_two t h h' lo junk k1 scheme dwsets k2 anywayOk anywayOk (fun _ _ _ _ _ _ _ _ => rfl)]

theorem eng_two_lemmatize (t : Moved Article.Clash as as') (h : EngOk A as) (h' : EngOk A' as') (w junk : List Byte) (dwsets : Nat)
    (hparts : (wordParts engTab w).length ≤ 8) (L : Option (List Lemm)) (B : Option (List Byte)) (G : Option (List Gram)) :
    lemmatize (engBuild as).images junk w L B G dwsets = lemmatize (engBuild as').images junk w L B G dwsets := by
  rw [lemmatize, lemmatize]
  cases hp : prepare w dwsets with
  | none => simp only [bind, Option.bind]
  | some r =>
    cases r with
    | error e => simp only [bind, Option.bind]
    | ok p =>
      obtain ⟨lo, scheme⟩ := p
      obtain ⟨k1, k2⟩ := prepare_ok hparts hp
      simp only [bind, Option.bind]
      rw [engScan_two t h h' lo junk k1 scheme dwsets k2 _ _ (fun id d d' inflex suffix grs s hd => hd.lemmCall id (stemOf lo junk inflex) suffix grs s)]

theorem eng_two_findForms (t : Moved Article.Clash as as') (h : EngOk A as) (h' : EngOk A' as') (w junk : List Byte) (idform dwsets : Nat)
    (hparts : (wordParts engTab w).length ≤ 8) (B : Option (List Byte)) :
    findForms (engBuild as).images junk B w idform dwsets = findForms (engBuild as').images junk B w idform dwsets := by
  rw [findForms, findForms]
  cases hp : prepare w dwsets with
  | none => simp only [bind, Option.bind]
  | some r =>
    cases B with
    | none => simp only [bind, Option.bind]
    | some B =>
      cases r with
      | error e => simp only [bind, Option.bind]
      | ok p =>
        obtain ⟨lo, scheme⟩ := p
        obtain ⟨k1, k2⟩ := prepare_ok hparts hp
        simp only [bind, Option.bind]
        rw [engScan_two t h h' lo junk k1 scheme dwsets k2 _ _ (fun id d d' inflex suffix grs s hd => hd.formBuild idform (stemOf lo junk inflex) suffix s)]

/-- The number leads to the record of one and the same article in both dictionaries. -/
theorem eng_lid_two (t : Moved Article.Clash as as') (h : EngOk A as) (h' : EngOk A' as') (hi : IdsOk as) (hi' : IdsOk as') (junk : List Byte)
    (id : Nat) (hj : (lexkey id).length + junk.length = 16) (hex : ∃ a ∈ as, a.id = id) :
    ∃ pos a, a ∈ as ∧ a.id = id ∧ lidLookup (engBuild as).images.lidstree junk id = some (some pos) ∧
      lidLookup (engBuild as').images.lidstree junk id = some (some pos) ∧
      (∃ rest, (engBuild as).images.stemtree.drop pos = ((engBuild as).entryFor a).ser ++ rest) ∧
      (∃ rest, (engBuild as').images.stemtree.drop pos = ((engBuild as').entryFor a).ser ++ rest) ∧
      (∀ (σ ρ : Type) (output : Nat → Nat → List Byte → List Byte → σ → Option (Option ρ × σ)) (s : σ),
        getTrack .u8 (selectView output ((engBuild as).images.stemtree.length - pos))
          (some ((engBuild as).images.stemtree.length - pos)) 48 (engBuild as).images.stemtree [] s
          = output id ((engBuild as).entryFor a).oclass a.lowStem a.post s) ∧
      ∀ (σ ρ : Type) (output : Nat → Nat → List Byte → List Byte → σ → Option (Option ρ × σ)) (s : σ),
        getTrack .u8 (selectView output ((engBuild as').images.stemtree.length - pos))
          (some ((engBuild as').images.stemtree.length - pos)) 48 (engBuild as').images.stemtree [] s
          = output id ((engBuild as').entryFor a).oclass a.lowStem a.post s := by
  have d := h.dict
  have d' := h'.dict
  have hl := hi.lid
  have hl' := hi'.lid
  rw [engBuild_entries] at d d' hl hl'
  have key := lid_two (ent := (engBuild as).entryFor) (ent' := (engBuild as').entryFor) (stem := Article.lowStem)
    (t.mono fun a _ b _ hab => ⟨hab.1, hab.2.1.2.2.1, hab.2.1.2.2.2, hab.2.2⟩) (fun a ha => eng_entry_recl h h' ha (t.perm.mem_iff.1 ha)) d d' hl hl' junk id (by omega) hex
  rw [← engBuild_entries, ← engBuild_entries] at key
  exact key

theorem eng_two_buildForm (t : Moved Article.Clash as as') (h : EngOk A as) (h' : EngOk A' as') (hi : IdsOk as) (hi' : IdsOk as') (junk : List Byte)
    (id idform : Nat) (hid : id < 2 ^ 32) (hj : (lexkey id).length + junk.length = 16)
    (B : Option (List Byte)) : buildForm (engBuild as).images junk B id idform = buildForm (engBuild as').images junk B id idform := by
  simp only [buildForm]
  cases B with
  | none => rfl
  | some B =>
    by_cases hB : B.length = 0
    · simp only [hB, if_true]
    · simp only [hB, if_false]
      by_cases hex : ∃ a ∈ as, a.id = id
      · obtain ⟨pos, a, ha, -, h2, h2', -, -, h3, h3'⟩ := eng_lid_two t h h' hi hi' junk id hj hex
        have ha' := t.perm.mem_iff.1 ha
        simp only [h2, h2', bind, Option.bind_some, formLength, h3, h3', buildClass, (h.loads ha).1, (h'.loads ha').1, (eng_same h h' ha ha').formBuild]
      · have e1 := lid_absent h hi junk id hid hj (fun a ha k => hex ⟨a, ha, k⟩)
        have e2 := lid_absent h' hi' junk id hid hj (fun a ha k => hex ⟨a, t.perm.mem_iff.2 ha, k⟩)
        simp only [e1, e2, bind, Option.bind_some]

/-- Part of speech read from the record of an article. -/
theorem getWdInfo_at (h : EngOk A as) {junk : List Byte} {id pos : Nat} {a : Article} (ha : a ∈ as) (h1 : a.id = id)
    (h2 : lidLookup (engBuild as).images.lidstree junk id = some (some pos))
    (h3 : ∃ rest, (engBuild as).images.stemtree.drop pos = ((engBuild as).entryFor a).ser ++ rest) :
    getWdInfo (engBuild as).images junk id = some (1, some a.pos) := by
  obtain ⟨rest, h3⟩ := h3
  have hid32 := h.ids a ha
  have hoc := (class_record_at (stateInv_build as).classes h.classes (engBuild_resolved as ha).1).1
  obtain ⟨r, w, e1, e2, e3⟩ := entry_fields ((engBuild as).entryFor a) hoc
  have hlen : 2 ≤ ((engBuild as).entryFor a).ser.length := by simp [Entry.ser]
  have hd : (engBuild as).images.stemtree.drop (pos + 2) = putserial id ++ putword16 w ++ (r ++ rest) := by
    rw [← List.drop_drop, h3, List.drop_append_of_le_length hlen, e1]
    rw [show ((engBuild as).entryFor a).nlexid = id from h1]
    simp
  simp only [getWdInfo, h2, bind, Option.bind_some, hd, List.append_assoc]
  rw [getserial_putserial (by omega)]
  simp only [Option.bind_some, getword16_putword16 e3, ne_eq, not_true_eq_false, if_false, e2, (h.loads ha).1, pure]
  congr 3
  rw [show ((engBuild as).infoFor a).wdinfo = a.wdinfo from rfl, wdinfo_and_3f a (h.pos a ha)]

theorem eng_two_wdInfo (t : Moved Article.Clash as as') (h : EngOk A as) (h' : EngOk A' as') (hi : IdsOk as) (hi' : IdsOk as') (junk : List Byte)
    (id : Nat) (hid : id < 2 ^ 32) (hj : (lexkey id).length + junk.length = 16) :
    getWdInfo (engBuild as).images junk id = getWdInfo (engBuild as').images junk id := by
  by_cases hex : ∃ a ∈ as, a.id = id
  · obtain ⟨pos, a, ha, h1, h2, h2', h4, h4', -, -⟩ := eng_lid_two t h h' hi hi' junk id hj hex
    rw [getWdInfo_at h ha h1 h2 h4, getWdInfo_at h' (t.perm.mem_iff.1 ha) h1 h2' h4']
  · have e1 := lid_absent h hi junk id hid hj (fun a ha k => hex ⟨a, ha, k⟩)
    have e2 := lid_absent h' hi' junk id hid hj (fun a ha k => hex ⟨a, t.perm.mem_iff.2 ha, k⟩)
    simp only [getWdInfo, e1, e2, bind, Option.bind_some]

end
end Libmorph
