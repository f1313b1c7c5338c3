import Verif.Spec.RusLemm
import Verif.Lemmas.RusFormsApi
import Verif.Lemmas.Lemm
/-
Lemmatize of the Russian interface.
-/
namespace Libmorph
open Libmorph.Spec
variable {A : List Byte} {D : RusDict} {st : RusState}

theorem isVerb_iff (w : Nat) : isVerb w = true ↔ VerbPos w := by
  simp only [isVerb, VerbPos, decide_eq_true_eq]
  rw [show (0x3f : Nat) = 2 ^ 6 - 1 from rfl, Nat.and_two_pow_sub_one_eq_mod]

theorem isAdjective_iff (w : Nat) : isAdjective w = true ↔ AdjPos w := by
  simp only [isAdjective, AdjPos]
  rw [show (0x3f : Nat) = 2 ^ 6 - 1 from rfl, Nat.and_two_pow_sub_one_eq_mod]
  simp only [Bool.or_eq_true, Bool.and_eq_true, decide_eq_true_eq, beq_iff_eq, List.mem_cons, List.not_mem_nil, or_false]
  omega

theorem wfMultiple_iff (w : Nat) : (w &&& wfMultiple ≠ 0) ↔ Spec.PluralOnly w := by
  have h : (w &&& 0x40) / 64 = w / 64 % 2 := by
    rw [show (64 : Nat) = 2 ^ 6 from rfl, Nat.and_div_two_pow, show (2 ^ 6 / 2 ^ 6 : Nat) = 2 ^ 1 - 1 from rfl, Nat.and_two_pow_sub_one_eq_mod]
  have hle : (w &&& 0x40) ≤ 0x40 := Nat.and_le_right
  have h2 : (w &&& 0x40) % 64 = 0 := by
    rw [show (64 : Nat) = 2 ^ 6 from rfl, Nat.and_mod_two_pow]; simp
  simp only [Spec.PluralOnly, wfMultiple]
  omega

theorem and_67_lt (g : Nat) : g &&& 0x67 ≤ 0x67 := Nat.and_le_right

/-- The dictionary request, on an article as stored. -/
theorem findDictForm_eq (st : RusState) (a : RusArticle) (g : FlexInfo) (dwsets : Nat) :
    findDictForm (st.infoFor a).wdinfo g dwsets = dictRequest a.wdinfo g dwsets := by
  have h3f := rus_info_and st a 0x3f (by decide) (by decide)
  have h40 := rus_info_and st a 0x40 (by decide) (by decide)
  have hv : isVerb (st.infoFor a).wdinfo = isVerb a.wdinfo := by simp only [isVerb, h3f]
  have hj : isAdjective (st.infoFor a).wdinfo = isAdjective a.wdinfo := by simp only [isAdjective, h3f]
  simp only [findDictForm, hv, hj, wfMultiple, h40, dictRequest]
  by_cases h1 : VerbPos a.wdinfo
  · rw [if_pos ((isVerb_iff _).2 h1), if_pos h1]
    simp only [isParticiple, gfVerbForm, vfVerbActive, vfVerbPassiv, nfAdjVerbs, gfVerbTime, vtInfinitiv, Bool.and_eq_true,
      Bool.or_eq_true, decide_eq_true_eq, beq_iff_eq]
    split
    · congr 1
      have : ∀ x : Nat, x ≤ 0x67 → x ||| 1 <<< 9 = x + 0x200 := by decide
      exact this _ (and_67_lt _)
    · rfl
  · rw [if_neg (fun hc => h1 ((isVerb_iff _).1 hc)), if_neg h1]
    by_cases h2 : AdjPos a.wdinfo
    · rw [if_pos ((isAdjective_iff _).2 h2), if_pos h2]
      by_cases h3 : Spec.PluralOnly a.wdinfo
      · rw [if_pos ((wfMultiple_iff _).2 h3), if_pos h3]; rfl
      · rw [if_neg (fun hc => h3 ((wfMultiple_iff _).1 hc)), if_neg h3]; rfl
    · rw [if_neg (fun hc => h2 ((isAdjective_iff _).1 hc)), if_neg h2]
      by_cases h3 : Spec.PluralOnly a.wdinfo
      · rw [if_pos ((wfMultiple_iff _).2 h3), if_pos h3]; rfl
      · rw [if_neg (fun hc => h3 ((wfMultiple_iff _).1 hc)), if_neg h3]; rfl

theorem dictRequest_small (w : Nat) (g : FlexInfo) (d : Nat) : (dictRequest w g d).gramm < 0x8000 ∧ (dictRequest w g d).flags = 3 := by
  have := and_67_lt g.gramm
  simp only [dictRequest]
  repeat' split
  all_goals first
    | exact ⟨by decide, by decide⟩
    | exact ⟨by simp only; omega, rfl⟩

theorem ret_add (x : Nat) (hx : x < 0x8000) : (x ||| gfRetForms) = x + 0x8000 ∧ x &&& gfRetForms = 0 := by
  constructor
  · have := Nat.two_pow_add_eq_or_of_lt (i := 15) hx 1
    simp only [Nat.mul_one] at this
    rw [Nat.or_comm]
    rw [show gfRetForms = 2 ^ 15 from rfl, ← this]
    omega
  · have h1 : (x &&& gfRetForms) / 2 ^ 15 = 0 := by
      rw [Nat.and_div_two_pow, show x / 2 ^ 15 = 0 by omega]; simp
    have h2 : (x &&& gfRetForms) % 2 ^ 15 = 0 := by
      rw [Nat.and_mod_two_pow]; simp
    omega

/-- `GetDictForms`. -/
theorem rusDictForms_eq (h : RusOk A D st) {a : RusArticle} (ha : a ∈ D.arts) (g : FlexInfo) (dwsets : Nat) (fs : List (List Byte))
    (hfs : D.DictForms a g dwsets fs) :
    fs ≠ [] ∧ (∀ f ∈ fs, Text f) ∧
    ((packed fs).length ≤ 256 →
      rusDictForms (st.images D.mtab) 256 a.stem a.post (st.heardInfo a) g dwsets = some ((fs.length : Int), packed fs)) ∧
    (256 < (packed fs).length →
      ∃ o, rusDictForms (st.images D.mtab) 256 a.stem a.post (st.heardInfo a) g dwsets = some (-1, o)) := by
  by_cases hinf : a.Inflected
  · simp only [RusDict.DictForms, if_pos hinf] at hfs
    have hst : st.heardInfo a = st.infoFor a := by simp only [RusState.heardInfo, if_pos hinf]
    obtain ⟨hsm, hfl⟩ := dictRequest_small a.wdinfo g dwsets
    obtain ⟨hne, hfs⟩ := hfs
    obtain ⟨fs1, f1, f2, f3⟩ := rusWordForms_inflected h ha hinf (dictRequest a.wdinfo g dwsets)
    obtain ⟨f4, f5⟩ := f3 256 []
    simp only [List.length_nil, Nat.zero_add, List.nil_append] at f4 f5
    have hlen : ∀ l : List (List Byte), l ≠ [] → ¬ ((l.length : Int) = 0) := by
      intro l hl h0
      have := List.length_pos_iff.2 hl; omega
    rcases hfs with hfs | ⟨hpos, hno, hfs⟩
    · have he : fs1 = fs := formsOf_unique f1 hfs
      subst he
      refine ⟨hne, f2, fun hsz => ?_, fun hsz => ?_⟩
      · simp only [rusDictForms, hst, findDictForm_eq, f4 hsz, bind, Option.bind_some, if_pos (hlen _ hne), ne_eq, hlen _ hne,
          not_false_eq_true, if_true, pure]
      · obtain ⟨o, ho⟩ := f5 (by omega) hsz
        refine ⟨o, ?_⟩
        simp only [rusDictForms, hst, findDictForm_eq, ho, bind, Option.bind_some, pure]
        rfl
    · have he : fs1 = [] := formsOf_unique f1 hno
      subst he
      obtain ⟨fs2, k1, k2, k3⟩ := rusWordForms_inflected h ha hinf ⟨(dictRequest a.wdinfo g dwsets).gramm + 0x8000, 3⟩
      obtain ⟨k4, k5⟩ := k3 256 []
      simp only [List.length_nil, Nat.zero_add, List.nil_append] at k4 k5
      have he : fs2 = fs := formsOf_unique k1 hfs
      subst he
      obtain ⟨r1, r2⟩ := ret_add _ hsm
      have h3f := rus_info_and st a 0x3f (by decide) (by decide)
      have hcond : (isVerb (st.infoFor a).wdinfo || isAdjective (st.infoFor a).wdinfo) = true := by
        have hv : isVerb (st.infoFor a).wdinfo = isVerb a.wdinfo := by simp only [isVerb, h3f]
        have hj : isAdjective (st.infoFor a).wdinfo = isAdjective a.wdinfo := by simp only [isAdjective, h3f]
        rw [hv, hj, Bool.or_eq_true]
        exact hpos.imp (isVerb_iff _).2 (isAdjective_iff _).2
      have h0 : rusWordForms (st.images D.mtab) 256 a.stem a.post (st.infoFor a) (dictRequest a.wdinfo g dwsets) [] = some (0, []) := by
        have := f4 (by simp [packed])
        simpa [packed] using this
      refine ⟨hne, k2, fun hsz => ?_, fun hsz => ?_⟩
      · simp only [rusDictForms, hst, findDictForm_eq, h0, bind, Option.bind_some, ne_eq, not_true_eq_false, if_false, r2, hcond,
          decide_true, Bool.and_true, if_true, r1, hfl, k4 hsz, hlen _ hne, not_false_eq_true, pure]
      · obtain ⟨o, ho⟩ := k5 (by omega) hsz
        refine ⟨o, ?_⟩
        simp only [rusDictForms, hst, findDictForm_eq, h0, bind, Option.bind_some, ne_eq, not_true_eq_false, if_false, r2, hcond,
          decide_true, Bool.and_true, if_true, r1, hfl, ho, pure]
        rfl
  · simp only [RusDict.DictForms, if_neg hinf] at hfs
    subst hfs
    have hst : st.heardInfo a = ⟨(st.infoFor a).wdinfo, 0, 0⟩ := by simp only [RusState.heardInfo, if_neg hinf]
    have hfx : (⟨(st.infoFor a).wdinfo, 0, 0⟩ : RusStem).flexTable (st.images D.mtab).flexTree = none := by
      simp [RusStem.flexTable]
    obtain ⟨f4, f5⟩ := rusWordForms_plain (st.images D.mtab) a.stem a.post ⟨(st.infoFor a).wdinfo, 0, 0⟩
      (findDictForm (st.infoFor a).wdinfo g dwsets) 256 [] hfx
    simp only [List.length_nil, Nat.zero_add, List.nil_append] at f4 f5
    refine ⟨by simp, ?_, fun hsz => ?_, fun hsz => ?_⟩
    · intro f hf
      rw [List.mem_singleton.1 hf]
      exact (h.stemText ha).append (h.postText ha)
    · simp only [rusDictForms, hst, f4 hsz, bind, Option.bind_some, pure]
      rfl
    · obtain ⟨o, ho⟩ := f5 hsz
      refine ⟨o, ?_⟩
      simp only [rusDictForms, hst, ho, bind, Option.bind_some, pure]
      rfl

/-- Choosing the least form. -/
theorem pickLeast_eq (rest : List (List Byte)) (hr : ∀ f ∈ rest, Text f) (c s : List Byte) (hc : Text c) (hs : Text s)
    (srest : List (List Byte)) :
    ∃ mrest, pickLeast rest.length (packed (c :: rest)) (packed (s :: srest))
      = some (packed (rest.foldl (fun s x => if bytesLt x s then x else s) s :: mrest)) := by
  induction rest generalizing c s srest with
  | nil => exact ⟨srest, rfl⟩
  | cons d rest ih =>
    have hd := hr d (by simp)
    have hdrop : (packed (c :: d :: rest)).drop (c.length + 1) = packed (d :: rest) := by
      rw [packed_cons]
      rw [show c ++ 0 :: packed (d :: rest) = (c ++ [0]) ++ packed (d :: rest) by simp]
      rw [List.drop_left' (by simp)]
    simp only [List.length_cons, pickLeast, bind]
    rw [packed_cons c, strLen_text c _ hc, Option.bind_some, ← packed_cons, hdrop]
    rw [packed_cons d, strLen_text d _ hd, Option.bind_some]
    rw [packed_cons s, strLen_text s _ hs, Option.bind_some, List.take_left, List.take_left]
    rw [← packed_cons, ← packed_cons, List.foldl_cons]
    by_cases hlt : bytesLt d s
    · rw [if_pos hlt, if_pos hlt]
      exact ih (fun f hf => hr f (by simp [hf])) d d hd hd rest
    · rw [if_neg hlt, if_neg hlt]
      exact ih (fun f hf => hr f (by simp [hf])) d s hd hs srest

theorem leastForm_mem {fs : List (List Byte)} (hne : fs ≠ []) : leastForm fs ∈ fs := by
  cases fs with
  | nil => exact absurd rfl hne
  | cons f fs =>
    simp only [leastForm]
    clear hne
    induction fs generalizing f with
    | nil => simp
    | cons g fs ih =>
      rw [List.foldl_cons]
      split
      · exact List.mem_cons_of_mem _ (ih g)
      · rcases List.mem_cons.1 (ih f) with h | h
        · rw [h]; simp
        · exact List.mem_cons_of_mem _ (List.mem_cons_of_mem _ h)

/-- The part that prints the dictionary form. -/
theorem rusPrints (h : RusOk A D st) {B : Option (List Byte)} {a : RusArticle} (ha : a ∈ D.arts) (g : FlexInfo) (dwsets : Nat)
    {fs : List (List Byte)} (hfs : B.isSome → D.DictForms a g dwsets fs) {p : LemmStep} (h1 : p.scratch = (packed fs).length)
    (h2 : p.text = rusPrinted a.demand (leastForm fs)) :
    Prints B p (rusLemmForm (st.images D.mtab) dwsets a.stem a.post (st.heardInfo a) g) := by
  have hcap : (st.heardInfo a).minCap = a.demand := by
    simp only [RusState.heardInfo]
    split <;> exact rus_info_minCap st a
  have key : B.isSome → ∀ (s : LemmState) (b x : List Byte), s.forms.Holds b x →
      ((packed fs).length ≤ 256 → rusLemmForm (st.images D.mtab) dwsets a.stem a.post (st.heardInfo a) g false s
          = (s.forms.appendz p.text).bind fun r =>
              if r.1 then some (.ok (), { s with forms := r.2 }) else some (.error LEMMBUFF_FAILED, { s with forms := r.2 })) ∧
      (256 < (packed fs).length → rusLemmForm (st.images D.mtab) dwsets a.stem a.post (st.heardInfo a) g false s
          = some (.error LEMMBUFF_FAILED, s)) := by
    intro hB s b x hs
    obtain ⟨k1, k2, k3, k4⟩ := rusDictForms_eq h ha g dwsets fs (hfs hB)
    have hsome : (s.forms.buf.isSome && !false) = true := by
      obtain ⟨y, h1, h2, -⟩ := hs.mem
      simp [h1]
    refine ⟨fun hsz => ?_, fun hsz => ?_⟩
    · have hpos : ¬ ((fs.length : Int) ≤ 0) := by
        have := List.length_pos_iff.2 k1; omega
      cases fs with
      | nil => exact absurd rfl k1
      | cons f rest =>
        obtain ⟨mrest, hm⟩ := pickLeast_eq rest (fun x hx => k2 x (by simp [hx])) f f (k2 f (by simp)) (k2 f (by simp)) rest
        have hl : rest.foldl (fun s x => if bytesLt x s then x else s) f = leastForm (f :: rest) := rfl
        have ht : Text (leastForm (f :: rest)) := k2 _ (leastForm_mem (by simp))
        rw [hl] at hm
        obtain ⟨c1, c2⟩ := capSet_rusPrinted (leastForm (f :: rest)) (packed mrest) a.demand a.demand_le ht
        have htk : (rusPrinted a.demand (leastForm (f :: rest)) ++ 0 :: packed mrest).take (leastForm (f :: rest)).length
            = rusPrinted a.demand (leastForm (f :: rest)) := by
          rw [← c2, List.take_left]
        simp only [rusLemmForm, hsome, if_true, k3 hsz, bind, Option.bind_some, if_neg hpos, hcap]
        rw [show ((f :: rest).length : Int).toNat - 1 = rest.length by simp, hm, Option.bind_some, packed_cons, strLen_text _ _ ht]
        simp only [Option.bind_some, c1, htk, h2]
        rfl
    · obtain ⟨o, ho⟩ := k4 hsz
      simp only [rusLemmForm, hsome, if_true, ho, bind, Option.bind_some]
      rw [if_pos (by omega)]
      rfl
  refine ⟨?_, ?_, ?_, ?_⟩
  · intro s; simp [rusLemmForm]
  · intro s hs; simp [rusLemmForm, hs]
  · intro s b x hB hs hsz hfit
    obtain ⟨k1, -⟩ := key (by rw [hB]; rfl) s b x hs
    obtain ⟨c, c1, c2⟩ := (Coder.appendz_eq hs p.text).1 (by
      simp only [List.length_append, List.length_singleton] at hfit; omega)
    rw [k1 (by omega), c1]
    exact ⟨c, by simp, c2⟩
  · intro s b x hB hs hbad
    obtain ⟨k1, k2⟩ := key (by rw [hB]; rfl) s b x hs
    by_cases hsz : (packed fs).length ≤ 256
    · obtain ⟨c, c1, b', c2, c3⟩ := (Coder.appendz_eq hs p.text).2 (by
        simp only [List.length_append, List.length_singleton] at hbad; omega)
      rw [k1 hsz, c1]
      exact ⟨c, by simp, by simp [c2, c3]⟩
    · rw [k2 (by omega)]
      exact ⟨s.forms, rfl, hs.size⟩

/-- The descriptions stored. -/
theorem rusPut_eq (h : RusOk A D st) {r : RusReading} (ha : r.art ∈ D.arts) (fs : List (List Byte)) :
    rusPut (st.heardInfo r.art) = (r.step fs).put := by
  funext g
  simp only [RusReading.step, RusState.heardInfo]
  by_cases hinf : r.art.Inflected
  · have ht : (st.infoFor r.art).tfoffs ≠ 0 := by
      have := rus_info_flex h ha
      rw [if_pos hinf] at this
      intro h0
      simp [RusStem.flexTable, h0] at this
    rw [if_pos hinf, if_pos hinf, rusPut, if_pos ht]
    have h1 := rus_info_and st r.art 0x7ff (by decide) (by decide)
    have h2 : r.art.wdinfo &&& 0x7ff = r.art.wdinfo % 2048 := by
      rw [show (0x7ff : Nat) = 2 ^ 11 - 1 from rfl, Nat.and_two_pow_sub_one_eq_mod]
    simp only [h1, h2]
    congr 1
    have h64 : r.art.wdinfo % 2048 &&& 0x3f = r.art.wdinfo &&& 0x3f := by
      rw [show (0x3f : Nat) = 2 ^ 6 - 1 from rfl, Nat.and_two_pow_sub_one_eq_mod, Nat.and_two_pow_sub_one_eq_mod]; omega
    have hv : isVerb (r.art.wdinfo % 2048) = isVerb r.art.wdinfo := by simp only [isVerb, h64]
    have hj : isAdjective (r.art.wdinfo % 2048) = isAdjective r.art.wdinfo := by simp only [isAdjective, h64]
    simp only [mapWordInfo, hv, hj]
  · rw [if_neg hinf, if_neg hinf, rusPut, if_neg (by simp)]
    have h1 := rus_info_and st r.art 0x1fff (by decide) (by decide)
    have h2 : r.art.wdinfo &&& 0x1fff = r.art.wdinfo := by
      rw [show (0x1fff : Nat) = 2 ^ 13 - 1 from rfl, Nat.and_two_pow_sub_one_eq_mod]
      exact Nat.mod_eq_of_lt (h.words _ ha)
    simp only [h1, h2]

/-- Lemmatize on a word the interface takes. -/
theorem rusLemmatize_groups (h : RusOk A D st) (w junk : List Byte) (dwsets : Nat)
    (hne : w ≠ []) (hlen : w.length < 48) (hparts : (wordParts rusTab w).length ≤ 8)
    {H : List RusReading} (hH : RusScanOf D st (w.map rusTab.lower) H)
    (L : Option (List Lemm)) (B : Option (List Byte)) (G : Option (List Gram)) (F : RusReading → List (List Byte))
    (hF : B.isSome → ∀ r ∈ rusHeard H w dwsets, D.DictForms r.art r.first dwsets (F r))
    (h32 : ∀ r ∈ rusHeard H w dwsets, r.grams.length < 2 ^ 32)
    (hsafe : JoinSafe L G ((rusHeard H w dwsets).map fun r => r.step (F r))) :
    (∃ s, rusLemmatize (st.images D.mtab) junk w L B G dwsets
        = some (((lemmGroups L.isSome ((rusHeard H w dwsets).map fun r => r.step (F r))).length : Int), s) ∧
      GroupHolds L B G (lemmGroups L.isSome ((rusHeard H w dwsets).map fun r => r.step (F r))) s) ∨
    (¬ GroupRoomy L B G (lemmGroups L.isSome ((rusHeard H w dwsets).map fun r => r.step (F r))) ∧
      ∃ r s, rusLemmatize (st.images D.mtab) junk w L B G dwsets = some (r, s) ∧
        GroupBlames L B G (lemmGroups L.isSome ((rusHeard H w dwsets).map fun r => r.step (F r))) r ∧ SameSizes L B G s) := by
  have hp := rusHeard_readings (dwsets := dwsets) hH
  have hr := rus_word_scan w junk dwsets hne hlen hparts hH
  generalize rusHeard H w dwsets = H at hp hr hF hsafe h32 ⊢
  rcases hr with ⟨h1, rfl⟩ | ⟨s, h1, h2⟩
  · left
    exact ⟨⟨L, 0, ⟨B, 0⟩, G, 0, 0⟩, by simp [rusLemmatize, h1, lemmGroups], by simpa [lemmGroups] using GroupHolds.init⟩
  · have k := groupRun (L := L) (B := B) (G := G) (fun r => r.step (F r))
      (fun r => rusLemmForm (st.images D.mtab) dwsets r.art.stem r.art.post (st.heardInfo r.art) r.first)
      (fun (r : RusReading) s => rusLemmCall (st.images D.mtab) dwsets r.art.id (st.heardInfo r.art)
          (stemOf (w.map rusTab.lower) junk ⟨r.alt ++ r.ending ++ (r.art.post ++ 0 :: junk), (r.alt ++ r.ending).length⟩)
          r.art.post (r.grams.map rawGram) s) H
      (fun r hrH s => by
        have hpr := (hp.proper r hrH).1
        obtain ⟨g, gs, hg⟩ := List.exists_cons_of_ne_nil hpr.some_
        simp only [rusStemOf hpr, rusLemmCall, hg, List.map_cons, RusReading.first, List.headD_cons]
        rw [rusPut_eq h hpr.art (F r)]
        simp only [RusReading.step, hg]
        rfl)
      (fun r hrH => rusPrints h (hp.proper r hrH).1.art _ _ (fun hB => hF hB r hrH) rfl rfl)
      (fun r hrH => by simpa [RusReading.step] using h32 r hrH)
      (done := []) GroupHolds.init (by simpa using hsafe)
    simp only [List.nil_append] at k
    rcases k with ⟨s', k1, k2⟩ | ⟨k0, r, s', k1, k2, k3⟩
    · left
      refine ⟨s', ?_, k2⟩
      simp only [rusLemmatize, h1, bind, Option.bind_some, h2]
      simp only [k1, Option.bind_some, k2.nbuilt, pure]
    · right
      refine ⟨k0, r, s', ?_, k2, k3⟩
      have hneg : r < 0 := by
        rcases k2 with ⟨h, -⟩ | ⟨h, -⟩ | ⟨h, -⟩ <;> rw [h] <;> decide
      simp only [rusLemmatize, h1, bind, Option.bind_some, h2]
      simp only [k1, Option.bind_some, if_pos hneg, pure]

end Libmorph
