import Verif.Lemmas.RusTwo
import Verif.Lemmas.EngTwo
/-
What the stack holds besides the word when a call is made does not show in its answer.
-/
namespace Libmorph
open Spec

theorem memcmp_tail (mix part J J' : List Byte) : ∀ n, n ≤ part.length → memcmp mix (part ++ J) n = memcmp mix (part ++ J') n := by
  induction part generalizing mix with
  | nil =>
    intro n hn
    have : n = 0 := by simpa using hn
    subst this
    simp [memcmp]
  | cons c part ih =>
    intro n hn
    cases n with
    | zero => simp [memcmp]
    | succ n =>
      cases mix with
      | nil => simp [memcmp]
      | cons m mix =>
        simp only [List.cons_append, memcmp, ih mix n (by simpa using hn)]

theorem mixCompare_tail (mix : List Byte) (n : Nat) (part J J' : List Byte) :
    mixCompare mix n ⟨part ++ J, part.length⟩ = mixCompare mix n ⟨part ++ J', part.length⟩ := by
  simp only [mixCompare, memcmp_tail mix part J J' (min n part.length) (Nat.min_le_right _ _)]

theorem mixLoop_tail {σ ρ : Type} {call call' : Nat → Frag → σ → Option (Option ρ × σ)} (part J J' : List Byte)
    (h : ∀ p m s, m ≤ part.length → call p ⟨part.drop m ++ J, (part.drop m).length⟩ s = call' p ⟨part.drop m ++ J', (part.drop m).length⟩ s) :
    ∀ (n : Nat) (p : List Byte) (s : σ), mixLoop call ⟨part ++ J, part.length⟩ n p s = mixLoop call' ⟨part ++ J', part.length⟩ n p s
  | 0, p, s => rfl
  | n + 1, p, s => by
    rw [mixLoop, mixLoop]
    cases hb : getbyte p with
    | none => rfl
    | some z =>
      obtain ⟨head, p⟩ := z
      simp only [bind, Option.bind]
      rw [← mixCompare_tail p (head &&& 0x0f) part J J']
      cases hm : mixCompare p (head &&& 0x0f) ⟨part ++ J, part.length⟩ with
      | none => rfl
      | some o =>
        cases o with
        | stop => rfl
        | skip => exact mixLoop_tail part J J' h n _ s
        | take =>
          have hle := mixCompare_take hm
          simp only at hle
          have e : ∀ J, (⟨(part ++ J).drop (head &&& 0x0f), part.length - (head &&& 0x0f)⟩ : Frag)
              = ⟨part.drop (head &&& 0x0f) ++ J, (part.drop (head &&& 0x0f)).length⟩ := by
            intro J
            rw [List.drop_append_of_le_length hle, List.length_drop]
          simp only [e, h _ _ _ hle]
          cases call' (head >>> 4) ⟨part.drop (head &&& 0x0f) ++ J', (part.drop (head &&& 0x0f)).length⟩ s with
          | none => rfl
          | some z =>
            obtain ⟨q, s⟩ := z
            cases q with
            | some q => rfl
            | none => exact mixLoop_tail part J J' h n _ s

theorem rusMatch_tail {im : RusImages} {c : RusStem} {σ ρ : Type} {target target' : RusTarget σ ρ} {oclass : Nat} (h1 : loadRus im.classmap oclass = some c)
    (h : SameClass im im c c) (part J J' suffix : List Byte) (hp : part.length < 64) (id scheme dwsets : Nat)
    (ht : ∀ d grs s, target id d ⟨part ++ J, part.length⟩ suffix grs s = target' id d ⟨part ++ J', part.length⟩ suffix grs s)
    (s : σ) :
    rusMatch im scheme dwsets target id oclass ⟨part ++ J, part.length⟩ suffix s
      = rusMatch im scheme dwsets target' id oclass ⟨part ++ J', part.length⟩ suffix s := by
  simp only [rusMatch, h1, bind, Option.bind]
  split
  · rfl
  · rcases h.table with ⟨e1, -, -⟩ | ⟨img, r, -, hc, e1, -⟩
    · rw [e1]
      simp only [ht]
    · rw [e1]
      simp only
      cases c.swapTable im.mxTables with
      | none =>
        obtain ⟨gs, hg⟩ := hc.scan (flexFilter c.wdinfo) part hp
        simp only [hg, ht]
      | some mixtab =>
        simp only [mixScan, bind, Option.bind]
        cases getbyte mixtab with
        | none => rfl
        | some z =>
          obtain ⟨n, p⟩ := z
          refine mixLoop_tail part J J' ?_ n p s
          intro pw m s hm
          obtain ⟨gs, hg⟩ := hc.scan (altFilter c.wdinfo pw) (part.drop m) (by rw [List.length_drop]; omega)
          simp only [hg, ht]

theorem scan_tail {A : List Byte} {l : List (List Byte × Entry)} (h : DictOk A l) (w J J' : List Byte) (hw : w.length < maxLevels)
    {σ ρ : Type} (output output' : Nat → Nat → Frag → List Byte → σ → Option (Option ρ × σ))
    (hout : ∀ p ∈ l, ∀ part s, w = p.1 ++ part ++ p.2.stpost →
      output p.2.nlexid p.2.oclass ⟨part ++ (p.2.stpost ++ J), part.length⟩ p.2.stpost s =
        output' p.2.nlexid p.2.oclass ⟨part ++ (p.2.stpost ++ J'), part.length⟩ p.2.stpost s) (s : σ) :
    scanTree .u8 (lookupList output) (stemImage (fileAll l)) ⟨w ++ J, w.length⟩ s =
      scanTree .u8 (lookupList output') (stemImage (fileAll l)) ⟨w ++ J', w.length⟩ s := by
  have e1 := scanDict_seen h output w J [] hw s
  have e2 := scanDict_seen h output' w J' [] hw s
  rw [List.append_nil] at e1 e2
  rw [e1, e2]
  refine runList_congr _ _ fun q hq s => ?_
  obtain ⟨k, e, x⟩ := q
  have hq := (allSeen_sublist _ _).subset hq
  rw [(allHits_perm _ w).mem_iff, List.mem_filterMap] at hq
  obtain ⟨p, hp1, hp2⟩ := hq
  split at hp2
  · rename_i hpre
    obtain ⟨rest, rfl⟩ := hpre
    rw [List.drop_left, Option.map_eq_some_iff] at hp2
    obtain ⟨y, hy, he⟩ := hp2
    simp only [Prod.mk.injEq] at he
    obtain ⟨rfl, rfl, rfl⟩ := he
    rw [Entry.flexOf_iff] at hy
    have := hout p hp1 y s (by rw [hy.1, List.append_assoc])
    simp only [List.append_assoc]
    exact this
  · simp at hp2

theorem stemOf_tail (lo a b junk : List Byte) (n : Nat) (h : lo = a ++ b) : stemOf lo junk ⟨b ++ 0 :: junk, n⟩ = a := by
  subst h
  simp only [stemOf, List.length_append, List.length_cons]
  rw [show a.length + b.length + (junk.length + 1) - (b.length + (junk.length + 1)) = a.length by omega, List.append_assoc]
  exact List.take_left

section
variable {A : List Byte} {D : RusDict} {st : RusState}

theorem rusScan_past (h : RusOk A D st) (w junk junk' : List Byte) (hw : w.length < 48) (scheme dwsets : Nat)
    (hs : scheme >>> 16 = w.length) {σ ρ : Type} (target target' : RusTarget σ ρ)
    (ht : ∀ id d a b n suffix grs s, w = a ++ b →
      target id d ⟨b ++ 0 :: junk, n⟩ suffix grs s = target' id d ⟨b ++ 0 :: junk', n⟩ suffix grs s) (s : σ) :
    rusScan (st.images D.mtab) w junk scheme dwsets target s = rusScan (st.images D.mtab) w junk' scheme dwsets target' s := by
  have hm : maxLevels = 64 := rfl
  rw [rusScan, rusScan, hs, show (st.images D.mtab).stemtree = stemImage (fileAll st.entries) from rfl, h.entries]
  refine scan_tail h.dict w (0 :: junk) (0 :: junk') (by omega) _ _ ?_ s
  intro p hp part s hwd
  obtain ⟨a, ha, rfl⟩ := List.mem_map.1 hp
  have hlen : part.length ≤ w.length := by rw [hwd]; simp only [List.length_append]; omega
  refine rusMatch_tail (rus_load h ha) (same_class ⟨rfl, rfl, Moved.refl _⟩ h h ha) part _ _ _ (by omega) _ _ _ ?_ s
  intro d grs s
  have := ht (st.entryFor D a).nlexid d a.stem (part ++ (st.entryFor D a).stpost) part.length (st.entryFor D a).stpost grs s
    (by rw [hwd, List.append_assoc])
  simpa [List.append_assoc] using this

theorem past_check (h : RusOk A D st) (w junk junk' : List Byte) (dwsets : Nat) (hparts : (wordParts rusTab w).length ≤ 8) :
    rusCheck (st.images D.mtab) junk w dwsets = rusCheck (st.images D.mtab) junk' w dwsets := by
  rw [rusCheck, rusCheck]
  cases hp : rusPrepare w dwsets with
  | none => simp only [bind, Option.bind]
  | some r =>
    cases r with
    | error e => simp only [bind, Option.bind]
    | ok p =>
      obtain ⟨lo, scheme⟩ := p
      obtain ⟨k1, k2⟩ := rusPrepare_ok hparts hp
      simp only [bind, Option.bind]
      rw [rusScan_past (σ := Unit) (ρ := Int) h lo junk junk' k1 scheme dwsets k2 (fun _ _ _ _ _ s => some (some 1, s)) (fun _ _ _ _ _ s => some (some 1, s))
        (fun _ _ _ _ _ _ _ _ _ => rfl)]

theorem past_lemmatize (h : RusOk A D st) (w junk junk' : List Byte) (dwsets : Nat) (hparts : (wordParts rusTab w).length ≤ 8)
    (L : Option (List Lemm)) (B : Option (List Byte)) (G : Option (List Gram)) :
    rusLemmatize (st.images D.mtab) junk w L B G dwsets = rusLemmatize (st.images D.mtab) junk' w L B G dwsets := by
  rw [rusLemmatize, rusLemmatize]
  cases hp : rusPrepare w dwsets with
  | none => simp only [bind, Option.bind]
  | some r =>
    cases r with
    | error e => simp only [bind, Option.bind]
    | ok p =>
      obtain ⟨lo, scheme⟩ := p
      obtain ⟨k1, k2⟩ := rusPrepare_ok hparts hp
      simp only [bind, Option.bind]
      rw [rusScan_past h lo junk junk' k1 scheme dwsets k2 _ (fun id lextem inflex suffix grs s => rusLemmCall (st.images D.mtab) dwsets id lextem (stemOf lo junk' inflex) suffix grs s)
        (fun id d a b n suffix grs s e => by
        rw [stemOf_tail lo a b junk n e, stemOf_tail lo a b junk' n e])]

theorem past_findForms (h : RusOk A D st) (w junk junk' : List Byte) (idform dwsets : Nat) (hparts : (wordParts rusTab w).length ≤ 8)
    (B : Option (List Byte)) :
    rusFindForms (st.images D.mtab) junk B w idform dwsets = rusFindForms (st.images D.mtab) junk' B w idform dwsets := by
  rw [rusFindForms, rusFindForms]
  cases hp : rusPrepare w dwsets with
  | none => simp only [bind, Option.bind]
  | some r =>
    cases B with
    | none => simp only [bind, Option.bind]
    | some B =>
      cases r with
      | error e => simp only [bind, Option.bind]
      | ok p =>
        obtain ⟨lo, scheme⟩ := p
        obtain ⟨k1, k2⟩ := rusPrepare_ok hparts hp
        simp only [bind, Option.bind]
        rw [rusScan_past h lo junk junk' k1 scheme dwsets k2 _ (fun _ lextem inflex suffix _ s => rusFormBuild (st.images D.mtab) idform (stemOf lo junk' inflex) suffix lextem s)
        (fun id d a b n suffix grs s e => by
          rw [stemOf_tail lo a b junk n e, stemOf_tail lo a b junk' n e])]

theorem past_lid (h : RusOk A D st) (hi : RusIdsOk D st) (junk junk' : List Byte) (id : Nat) (hj : (lexkey id).length + junk.length = 16)
    (hj' : (lexkey id).length + junk'.length = 16) :
    lidLookup (st.images D.mtab).lidstree junk id = lidLookup (st.images D.mtab).lidstree junk' id := by
  have e1 := lidLookup_find h.dict' (hi.lid h) junk [] id (by omega)
  have e2 := lidLookup_find h.dict' (hi.lid h) junk' [] id (by omega)
  rw [List.append_nil] at e1 e2
  exact e1.trans e2.symm

theorem past_buildForm (h : RusOk A D st) (hi : RusIdsOk D st) (junk junk' : List Byte) (id idform : Nat) (hj : (lexkey id).length + junk.length = 16)
    (hj' : (lexkey id).length + junk'.length = 16) (B : Option (List Byte)) :
    rusBuildForm (st.images D.mtab) junk B id idform = rusBuildForm (st.images D.mtab) junk' B id idform := by
  simp only [rusBuildForm, past_lid h hi junk junk' id hj hj']

theorem past_wdInfo (h : RusOk A D st) (hi : RusIdsOk D st) (junk junk' : List Byte) (id : Nat) (hj : (lexkey id).length + junk.length = 16)
    (hj' : (lexkey id).length + junk'.length = 16) : rusWdInfo (st.images D.mtab) junk id = rusWdInfo (st.images D.mtab) junk' id := by
  simp only [rusWdInfo, past_lid h hi junk junk' id hj hj']

end

section
variable {A : List Byte} {as : List Article}

theorem engScan_past (h : EngOk A as) (w junk junk' : List Byte) (hw : w.length < 48) (scheme dwsets : Nat)
    (hs : scheme >>> 16 = w.length) {σ ρ : Type} (target target' : Target σ ρ)
    (ht : ∀ id d a b n suffix grs s, w = a ++ b →
      target id d ⟨b ++ 0 :: junk, n⟩ suffix grs s = target' id d ⟨b ++ 0 :: junk', n⟩ suffix grs s) (s : σ) :
    scanWord (engBuild as).images w junk scheme dwsets target s = scanWord (engBuild as).images w junk' scheme dwsets target' s := by
  have hm : maxLevels = 64 := rfl
  rw [scanWord, scanWord, hs, show (engBuild as).images.stemtree = stemImage (fileAll (engBuild as).entries) from rfl]
  have d := h.dict
  rw [engBuild_entries] at d ⊢
  refine scan_tail d w (0 :: junk) (0 :: junk') (by omega) _ _ ?_ s
  intro p hp part s hwd
  obtain ⟨a, ha, rfl⟩ := List.mem_map.1 hp
  have e1 := matchClass_article h ha (scheme % 65536) dwsets target part (((engBuild as).entryFor a).stpost ++ 0 :: junk) ((engBuild as).entryFor a).stpost s
  have e2 := matchClass_article h ha (scheme % 65536) dwsets target' part (((engBuild as).entryFor a).stpost ++ 0 :: junk') ((engBuild as).entryFor a).stpost s
  have := fun d grs => ht a.id d a.lowStem (part ++ ((engBuild as).entryFor a).stpost) part.length ((engBuild as).entryFor a).stpost grs s
    (by rw [hwd, List.append_assoc])
  simp only [List.append_assoc] at this
  simp only [show ((engBuild as).entryFor a).nlexid = a.id from rfl]
  rw [e1, e2, this]

theorem eng_past_check (h : EngOk A as) (w junk junk' : List Byte) (dwsets : Nat) (hparts : (wordParts engTab w).length ≤ 8) :
    checkWord (engBuild as).images junk w dwsets = checkWord (engBuild as).images junk' w dwsets := by
  rw [checkWord, checkWord]
  cases hp : prepare w dwsets with
  | none => simp only [bind, Option.bind]
  | some r =>
    cases r with
    | error e => simp only [bind, Option.bind]
    | ok p =>
      obtain ⟨lo, scheme⟩ := p
      obtain ⟨k1, k2⟩ := prepare_ok hparts hp
      simp only [bind, Option.bind]
      rw [engScan_past h lo junk junk' k1 scheme dwsets k2 anywayOk anywayOk (fun _ _ _ _ _ _ _ _ _ => rfl)]

theorem eng_past_lemmatize (h : EngOk A as) (w junk junk' : List Byte) (dwsets : Nat) (hparts : (wordParts engTab w).length ≤ 8)
    (L : Option (List Lemm)) (B : Option (List Byte)) (G : Option (List Gram)) :
    lemmatize (engBuild as).images junk w L B G dwsets = lemmatize (engBuild as).images junk' w L B G dwsets := by
  rw [lemmatize, lemmatize]
  cases hp : prepare w dwsets with
  | none => simp only [bind, Option.bind]
  | some r =>
    cases r with
    | error e => simp only [bind, Option.bind]
    | ok p =>
      obtain ⟨lo, scheme⟩ := p
      obtain ⟨k1, k2⟩ := prepare_ok hparts hp
      simp only [bind, Option.bind]
      rw [engScan_past h lo junk junk' k1 scheme dwsets k2 _ (fun id lextem inflex suffix grs s => lemmCall (engBuild as).images.flexTree id lextem (stemOf lo junk' inflex) suffix grs s)
        (fun id d a b n suffix grs s e => by
        rw [stemOf_tail lo a b junk n e, stemOf_tail lo a b junk' n e])]

theorem eng_past_findForms (h : EngOk A as) (w junk junk' : List Byte) (idform dwsets : Nat) (hparts : (wordParts engTab w).length ≤ 8)
    (B : Option (List Byte)) :
    findForms (engBuild as).images junk B w idform dwsets = findForms (engBuild as).images junk' B w idform dwsets := by
  rw [findForms, findForms]
  cases hp : prepare w dwsets with
  | none => simp only [bind, Option.bind]
  | some r =>
    cases B with
    | none => simp only [bind, Option.bind]
    | some B =>
      cases r with
      | error e => simp only [bind, Option.bind]
      | ok p =>
        obtain ⟨lo, scheme⟩ := p
        obtain ⟨k1, k2⟩ := prepare_ok hparts hp
        simp only [bind, Option.bind]
        rw [engScan_past h lo junk junk' k1 scheme dwsets k2 _ (fun _ lextem inflex suffix _ s => formBuild (engBuild as).images.flexTree idform (stemOf lo junk' inflex) suffix lextem s)
        (fun id d a b n suffix grs s e => by
          rw [stemOf_tail lo a b junk n e, stemOf_tail lo a b junk' n e])]

theorem eng_past_lid (h : EngOk A as) (hi : IdsOk as) (junk junk' : List Byte) (id : Nat) (hj : (lexkey id).length + junk.length = 16)
    (hj' : (lexkey id).length + junk'.length = 16) :
    lidLookup (engBuild as).images.lidstree junk id = lidLookup (engBuild as).images.lidstree junk' id := by
  have e1 := lidLookup_find h.dict hi.lid junk [] id (by omega)
  have e2 := lidLookup_find h.dict hi.lid junk' [] id (by omega)
  rw [List.append_nil] at e1 e2
  exact e1.trans e2.symm

theorem eng_past_buildForm (h : EngOk A as) (hi : IdsOk as) (junk junk' : List Byte) (id idform : Nat) (hj : (lexkey id).length + junk.length = 16)
    (hj' : (lexkey id).length + junk'.length = 16) (B : Option (List Byte)) :
    buildForm (engBuild as).images junk B id idform = buildForm (engBuild as).images junk' B id idform := by
  simp only [buildForm, eng_past_lid h hi junk junk' id hj hj']

theorem eng_past_wdInfo (h : EngOk A as) (hi : IdsOk as) (junk junk' : List Byte) (id : Nat) (hj : (lexkey id).length + junk.length = 16)
    (hj' : (lexkey id).length + junk'.length = 16) : getWdInfo (engBuild as).images junk id = getWdInfo (engBuild as).images junk' id := by
  simp only [getWdInfo, eng_past_lid h hi junk junk' id hj hj']

end
end Libmorph
