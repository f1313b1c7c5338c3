import Verif.Lemmas.EngForms
import Verif.Lemmas.FormRun
import Verif.Props.C07
/-
The functions of the English interface, in terms of articles.
-/
namespace Libmorph

/-! ### The word -/

/-- What the preparation of a word comes to. -/
theorem prepare_eq (w : List Byte) (dwsets : Nat) (hne : w ≠ []) (hlen : w.length < 48)
    (hparts : (wordParts engTab w).length ≤ 8) :
    (prepare w dwsets = some (.error 0) ∧ ∀ d, d ≤ 2 → admits w dwsets d = false) ∨
    ∃ s, prepare w dwsets = some (.ok (w.map engTab.lower, s)) ∧ s >>> 16 = w.length ∧
      ∀ d, d ≤ 2 → (decide (dwsets &&& 2 ≠ 0) || isGood (s % 65536) d) = admits w dwsets d := by
  obtain ⟨s, h1, h2, h3, h4, h5⟩ := capGet_summary engTab engTab_ok formLength w hne hlen (by decide) hparts
  have hfit : ∀ d, d ≤ 2 → isGood (s % 65536) d = decide (CapsFit engTab w d) := by
    intro d hd
    rw [Bool.eq_iff_iff, h4 d hd]; simp
  simp only [prepare, toCanonic, if_neg (show ¬ w.length = 0 from fun h0 => hne (List.length_eq_zero_iff.1 h0)), h1,
    bind, Option.bind_some, pure, if_neg h2, sfIgnoreCapitals]
  by_cases hbad : s % 256 = 255 ∧ dwsets &&& 2 = 0
  · left
    rw [if_pos (by simpa using hbad)]
    refine ⟨rfl, fun d hd => ?_⟩
    rw [admits, ← hfit d hd, h5 hbad.1]
    simp [hbad.2]
  · right
    rw [if_neg (by simpa using hbad)]
    refine ⟨s, rfl, h3, fun d hd => ?_⟩
    rw [hfit d hd, admits]

theorem matchesOf_congr {as : List Article} {f g : Nat → Bool} {w : List Byte} (h : ∀ d, d ≤ 2 → f d = g d) :
    matchesOf as f w = matchesOf as g w := by
  simp only [matchesOf]
  apply List.filterMap_congr
  intro a _
  rw [h _ (demand_le a)]

/-- What a scan of the lower-cased word `lw` comes across, and that it does. -/
structure ScanOf (as : List Article) (lw : List Byte) (V : List (Article × List Byte)) : Prop where
  visits : Visits as lw V
  scan : ∀ (junk : List Byte) (scheme dwsets : Nat), scheme >>> 16 = lw.length →
      ∀ {σ ρ : Type} (target : Target σ ρ) (s : σ),
        scanWord (engBuild as).images lw junk scheme dwsets target s
          = runList (fun p => target p.1.id ((engBuild as).infoFor p.1)
              ⟨p.2 ++ p.1.post ++ 0 :: junk, p.2.length⟩ p.1.post (p.1.grams p.2))
            (V.filter fun q => (decide (dwsets &&& 2 ≠ 0) || isGood (scheme % 65536) q.1.demand) && q.1.takes q.2) s

theorem scanOf_exists {A : List Byte} {as : List Article} (h : EngOk A as) (lw : List Byte) (hw : lw.length < 48) :
    ∃ V, ScanOf as lw V := by
  obtain ⟨V, h1, h2⟩ := scanWord_visits h lw hw
  exact ⟨V, h1, h2⟩

/-- The visited articles that are reported for a spelling. -/
def heard (V : List (Article × List Byte)) (w : List Byte) (dwsets : Nat) : List (Article × List Byte) :=
  V.filter fun q => admits w dwsets q.1.demand && q.1.takes q.2

theorem heard_readings {as : List Article} {w : List Byte} {V : List (Article × List Byte)}
    (hV : Visits as (w.map engTab.lower) V) (dwsets : Nat) : Readings as w dwsets (heard V w dwsets) :=
  ⟨hV.sub _, fun hs => hV.full hs _, hV.order.filter _⟩

theorem Readings.mem {as : List Article} {w : List Byte} {dwsets : Nat} {H : List (Article × List Byte)}
    (h : Readings as w dwsets H) {p : Article × List Byte} (hp : p ∈ H) : p ∈ Matches as w dwsets := h.sub.subset hp

/-- Either no scan takes place and nothing matches, or the scan runs over the readings. -/
theorem word_scan {as : List Article} (w junk : List Byte) (dwsets : Nat)
    (hne : w ≠ []) (hlen : w.length < 48) (hparts : (wordParts engTab w).length ≤ 8)
    {V : List (Article × List Byte)} (hV : ScanOf as (w.map engTab.lower) V) :
      (prepare w dwsets = some (.error 0) ∧ heard V w dwsets = []) ∨
       ∃ s, prepare w dwsets = some (.ok (w.map engTab.lower, s)) ∧
        ∀ {σ ρ : Type} (target : Target σ ρ) (st : σ),
          scanWord (engBuild as).images (w.map engTab.lower) junk s dwsets target st
            = runList (fun p => target p.1.id ((engBuild as).infoFor p.1)
                ⟨p.2 ++ p.1.post ++ 0 :: junk, p.2.length⟩ p.1.post (p.1.grams p.2)) (heard V w dwsets) st := by
  rcases prepare_eq w dwsets hne hlen hparts with ⟨h1, h2⟩ | ⟨s, h1, h2, h3⟩
  · refine Or.inl ⟨h1, ?_⟩
    rw [heard, List.filter_eq_nil_iff]
    intro q _
    rw [h2 _ (demand_le q.1)]; simp
  · refine Or.inr ⟨s, h1, ?_⟩
    intro σ ρ target st
    rw [hV.scan junk s dwsets (by simpa using h2) target st, heard]
    congr 1
    apply List.filter_congr
    intro q _
    rw [h3 _ (demand_le q.1)]

theorem mem_Matches {as : List Article} {w : List Byte} {dwsets : Nat} {a : Article} {e : List Byte} :
    (a, e) ∈ Matches as w dwsets ↔ a ∈ as ∧ a.Form (w.map engTab.lower) e ∧ a.takes e = true ∧
      admits w dwsets a.demand = true := by
  simp only [Matches, matchesOf, List.mem_filterMap]
  constructor
  · rintro ⟨a', ha', h⟩
    cases he : a'.endingIn (w.map engTab.lower) with
    | none => rw [he] at h; simp at h
    | some x =>
      rw [he] at h
      simp only [Option.bind_some] at h
      split at h
      · rename_i hc
        simp only [Option.some.injEq, Prod.mk.injEq] at h
        obtain ⟨rfl, rfl⟩ := h
        simp only [Bool.and_eq_true] at hc
        exact ⟨ha', (Article.endingIn_iff _ _ _).1 he, hc.1, hc.2⟩
      · simp at h
  · rintro ⟨h1, h2, h3, h4⟩
    refine ⟨a, h1, ?_⟩
    rw [(Article.endingIn_iff _ _ _).2 h2]
    simp [h3, h4]

/-- Some article matches exactly when the word is a form of one whose demand is met. -/
theorem Matches_ne_nil {as : List Article} {w : List Byte} {dwsets : Nat} :
    Matches as w dwsets ≠ [] ↔ ∃ a ∈ as, a.HasForm (w.map engTab.lower) ∧ admits w dwsets a.demand = true := by
  constructor
  · intro h
    obtain ⟨⟨a, e⟩, hm⟩ := List.exists_mem_of_ne_nil _ h
    obtain ⟨h1, h2, h3, h4⟩ := mem_Matches.1 hm
    refine ⟨a, h1, ?_, h4⟩
    simp only [Article.HasForm]
    simp only [Article.takes] at h3
    split
    · rename_i hinf
      rw [if_pos hinf] at h3
      obtain ⟨i, hi⟩ := List.exists_mem_of_ne_nil _ (of_decide_eq_true h3)
      exact ⟨e, i, mem_idsOf.1 hi, h2⟩
    · rename_i hinf
      rw [if_neg hinf] at h3
      rw [← of_decide_eq_true h3]; exact h2
  · rintro ⟨a, h1, h2, h4⟩
    have : ∃ e, a.takes e = true ∧ a.Form (w.map engTab.lower) e := by
      simp only [Article.HasForm] at h2
      split at h2
      · rename_i hinf
        obtain ⟨e, i, h5, h6⟩ := h2
        refine ⟨e, ?_, h6⟩
        simp only [Article.takes, if_pos hinf, decide_eq_true_eq]
        exact List.ne_nil_of_mem (mem_idsOf.2 h5)
      · rename_i hinf
        exact ⟨[], by simp [Article.takes, hinf], h2⟩
    obtain ⟨e, h5, h6⟩ := this
    exact List.ne_nil_of_mem (mem_Matches.2 ⟨h1, h6, h5, h4⟩)

/-! ### CheckWord -/

theorem checkWord_heard {as : List Article} (w junk : List Byte) (dwsets : Nat)
    (hne : w ≠ []) (hlen : w.length < 48) (hparts : (wordParts engTab w).length ≤ 8)
    {V : List (Article × List Byte)} (hV : ScanOf as (w.map engTab.lower) V) :
    checkWord (engBuild as).images junk w dwsets = some (if heard V w dwsets = [] then 0 else 1) := by
  rcases word_scan w junk dwsets hne hlen hparts hV with ⟨h1, h0⟩ | ⟨s, h1, h2⟩
  · simp [checkWord, h1, h0]
  · simp only [checkWord, h1, bind, Option.bind_some, h2, pure]
    generalize heard V w dwsets = H
    cases H with
    | nil => simp [runList]
    | cons p H => simp [runList, anywayOk]

theorem checkWord_eq {A : List Byte} {as : List Article} (h : EngOk A as) (w junk : List Byte) (dwsets : Nat)
    (hne : w ≠ []) (hlen : w.length < 48) (hparts : (wordParts engTab w).length ≤ 8)
    (hs : SuffixSafe as (w.map engTab.lower)) :
    checkWord (engBuild as).images junk w dwsets = some (if Matches as w dwsets = [] then 0 else 1) := by
  obtain ⟨V, hV⟩ := scanOf_exists h (w.map engTab.lower) (by simpa using hlen)
  rw [checkWord_heard w junk dwsets hne hlen hparts hV]
  have := (heard_readings hV.visits dwsets).full hs
  by_cases hm : Matches as w dwsets = []
  · rw [hm] at this; rw [if_pos this.eq_nil, if_pos hm]
  · rw [if_neg, if_neg hm]
    intro h0; rw [h0] at this; exact hm this.symm.eq_nil

theorem Article.delivered_eq (a : Article) (i : Nat) (h : a.Inflected ∨ a.post = []) : a.delivered i = a.formsFor i := by
  simp only [Article.delivered, Article.formsFor]
  split
  · rfl
  · rename_i hn
    rw [h.resolve_left hn]; simp

theorem EngOk.tfoffs {A : List Byte} {as : List Article} (h : EngOk A as) {a : Article} (ha : a ∈ as) :
    ((engBuild as).infoFor a).tfoffs ≠ 0 ↔ a.Inflected := by
  obtain ⟨-, l2⟩ := h.loads ha
  constructor
  · intro h0; by_contra hn; exact h0 (l2.plain hn)
  · intro hi; exact (l2.table hi).1

theorem formBuild_eq {A : List Byte} {as : List Article} (h : EngOk A as) {a : Article} (ha : a ∈ as) (i : Nat)
    (B x : List Byte) (s : FormState) (hs : s.pforms.Holds B x) :
    ((packed (a.delivered i)).length ≤ 256 →
      (a.delivered i ≠ [] → (x ++ packed ((a.delivered i).map (printed a.demand))).length + 1 ≤ B.length) →
      ∃ c, formBuild (engBuild as).images.flexTree i a.lowStem a.post ((engBuild as).infoFor a) s
          = some (none, ⟨c, s.nbuilt + (a.delivered i).length⟩) ∧
        c.Holds B (x ++ packed ((a.delivered i).map (printed a.demand)))) ∧
    (a.delivered i ≠ [] → (256 < (packed (a.delivered i)).length ∨
        B.length < (x ++ packed ((a.delivered i).map (printed a.demand))).length + 1) →
      ∃ c n, formBuild (engBuild as).images.flexTree i a.lowStem a.post ((engBuild as).infoFor a) s
          = some (some LEMMBUFF_FAILED, ⟨c, n⟩) ∧ ∃ b, c.buf = some b ∧ b.length = B.length) := by
  have hb : ∃ b, s.pforms.buf = some b ∧ b.length = B.length := by
    obtain ⟨y, h1, h2, -⟩ := hs.mem
    exact ⟨_, h1, by have := hs.room; simp; omega⟩
  have hcap : (((engBuild as).infoFor a).wdinfo >>> 7) &&& 3 = a.demand := minCap_value a (h.pos a ha) _
  by_cases hmatch : a.Inflected ↔ i ≠ 255
  · have hdel : a.delivered i = a.built i := by
      simp only [Article.delivered, Article.built]
      split
      · rename_i hinf; rw [if_neg (hmatch.1 hinf)]
      · rename_i hinf; rw [if_pos]; by_contra hc; exact hinf (hmatch.2 hc)
    have hcond : ¬ (((engBuild as).infoFor a).tfoffs ≠ 0) ≠ (i ≠ 0xff) := by
      rw [h.tfoffs ha]; simp only [ne_eq, eq_iff_iff, not_not]; exact hmatch
    obtain ⟨g1, g2⟩ := getWordForms_article h ha i
    rw [hdel]
    simp only [formBuild, if_neg hcond]
    constructor
    · intro hsz hfit
      rw [g1 hsz]
      simp only [bind, Option.bind_some]
      by_cases hempty : a.built i = []
      · rw [hempty]
        refine ⟨s.pforms, ?_, by simpa [packed] using hs⟩
        simp [retInt]
      · have hpos : 0 < (a.built i).length := List.length_pos_iff.2 hempty
        rw [if_neg (by omega), Int.toNat_natCast, hcap]
        have := (formCopyLoop_eq a.demand (demand_le a) B [] (a.built i) (h.builtText ha i) s x hs).1 hfit
        simpa using this
    · intro hne hbad
      by_cases hsz : (packed (a.built i)).length ≤ 256
      · rw [g1 hsz]
        simp only [bind, Option.bind_some]
        have hpos : 0 < (a.built i).length := List.length_pos_iff.2 hne
        rw [if_neg (by omega), Int.toNat_natCast, hcap]
        have := (formCopyLoop_eq a.demand (demand_le a) B [] (a.built i) (h.builtText ha i) s x hs).2 hne (by omega)
        simpa using this
      · obtain ⟨o, ho⟩ := g2 (by omega)
        rw [ho]
        refine ⟨s.pforms, s.nbuilt, ?_, hb⟩
        simp [retInt]
  · have hdel : a.delivered i = [] := by
      simp only [Article.delivered]
      split
      · rename_i hinf; rw [if_pos]; by_contra hc; exact hmatch ⟨fun _ => hc, fun _ => hinf⟩
      · rename_i hinf; rw [if_neg]; intro hc; exact hmatch ⟨fun h => absurd h hinf, fun h => absurd hc h⟩
    have hcond : (((engBuild as).infoFor a).tfoffs ≠ 0) ≠ (i ≠ 0xff) := by
      rw [h.tfoffs ha]; simp only [ne_eq, eq_iff_iff]; exact hmatch
    rw [hdel]
    simp only [formBuild, if_pos hcond]
    refine ⟨fun _ _ => ⟨s.pforms, ?_, by simpa [packed] using hs⟩, fun hne => absurd rfl hne⟩
    simp

theorem deliveredAll_cons (a : Article) (H : List Article) (i : Nat) :
    deliveredAll (a :: H) i = (a.delivered i).map (printed a.demand) ++ deliveredAll H i := rfl

theorem printed_length (d : Nat) (hd : d ≤ 2) (w : List Byte) (hw : Text w) : (printed d w).length = w.length :=
  (capSet_printed w [] d hd hw).2

/-- `FindForms` on a list of matching articles. -/
theorem formRun_outcome {A : List Byte} {as : List Article} (h : EngOk A as) (i : Nat) (B : List Byte) {α : Type}
    (f : α → Article) (H : List α) (hH : ∀ p ∈ H, f p ∈ as) (act : α → FormState → Option (Option Int × FormState))
    (hact : ∀ p ∈ H, ∀ s, act p s = formBuild (engBuild as).images.flexTree i (f p).lowStem (f p).post ((engBuild as).infoFor (f p)) s) :
    FormOutcome ((runList act H ⟨⟨some B, 0⟩, 0⟩).map fun r => ((formResult r).1, (formResult r).2.buf))
      (deliveredAll (H.map f) i) (∀ p ∈ H, (packed ((f p).delivered i)).length ≤ 256) B := by
  have := formRun_outcome_gen B (fun p => (f p).delivered i) (fun p => ((f p).delivered i).map (printed (f p).demand)) H act
    (fun p hp => ⟨by simp, fun x s hs => by rw [hact p hp]; exact (formBuild_eq h (hH p hp) i B x s hs).1,
      fun x s hs => by rw [hact p hp]; exact (formBuild_eq h (hH p hp) i B x s hs).2⟩)
  rwa [show deliveredAll (H.map f) i = H.flatMap fun p => ((f p).delivered i).map (printed (f p).demand) by
    simp [deliveredAll, List.flatMap_map]]

theorem deliveredAll_single (a : Article) (i : Nat) :
    deliveredAll [a] i = (a.delivered i).map (printed a.demand) := by simp [deliveredAll]

/-! ### BuildForm, GetWdInfo -/

theorem IdsOk.lid {as : List Article} (h : IdsOk as) : LidOk (engBuild as).entries := by
  refine ⟨?_, h.size⟩
  intro p hp
  rw [engBuild_entries] at hp
  obtain ⟨a, ha, rfl⟩ := List.mem_map.1 hp
  exact h.ids a ha

theorem lid_absent {A : List Byte} {as : List Article} (h : EngOk A as) (hi : IdsOk as) (junk : List Byte) (id : Nat)
    (hid : id < 2 ^ 32) (hj : (lexkey id).length + junk.length = 16) (hno : ∀ a ∈ as, a.id ≠ id) :
    lidLookup (engBuild as).images.lidstree junk id = some none := by
  have := (C07_lid_lookup_partial h.dict hi.lid junk [] [] id hid hj).1 (by
    intro p hp
    rw [engBuild_entries] at hp
    obtain ⟨a, ha, rfl⟩ := List.mem_map.1 hp
    exact hno a ha)
  rw [List.append_nil] at this
  exact this

/-- The position found for an id is that of an article with this id. -/
theorem lid_present {A : List Byte} {as : List Article} (h : EngOk A as) (hi : IdsOk as) (junk : List Byte) (id : Nat)
    (hj : (lexkey id).length + junk.length = 16) (hex : ∃ a ∈ as, a.id = id) :
    ∃ pos a, a ∈ as ∧ a.id = id ∧ lidLookup (engBuild as).images.lidstree junk id = some (some pos) ∧
      (∃ rest, (engBuild as).images.stemtree.drop pos = ((engBuild as).entryFor a).ser ++ rest) ∧
      ∀ (σ ρ : Type) (output : Nat → Nat → List Byte → List Byte → σ → Option (Option ρ × σ)) (s : σ),
        getTrack .u8 (selectView output ((engBuild as).images.stemtree.length - pos))
          (some ((engBuild as).images.stemtree.length - pos)) 48 (engBuild as).images.stemtree [] s
          = output id ((engBuild as).entryFor a).oclass a.lowStem a.post s := by
  obtain ⟨a0, ha0, hid0⟩ := hex
  obtain ⟨pos, h1, h2⟩ := lidLookup_present h.dict hi.lid junk [] id (by omega)
    ⟨(a0.lowStem, (engBuild as).entryFor a0), by rw [engBuild_entries]; exact List.mem_map.2 ⟨a0, ha0, rfl⟩, hid0⟩
  obtain ⟨k, e, h3, h4, h5, h6, h7⟩ := record_at h.dict h2 []
  rw [engBuild_entries] at h3
  obtain ⟨a, ha, he⟩ := List.mem_map.1 h3
  simp only [Prod.mk.injEq] at he
  obtain ⟨rfl, rfl⟩ := he
  refine ⟨pos, a, ha, h4, by simpa [EngState.images] using h1, by simpa [EngState.images] using h6, ?_⟩
  intro σ ρ output s
  have := h7 σ ρ output s
  rw [List.append_nil] at this
  rw [show (engBuild as).images.stemtree = stemImage (fileAll (engBuild as).entries) from rfl, this, h4]
  rfl

theorem buildForm_eq {A : List Byte} {as : List Article} (h : EngOk A as) (hi : IdsOk as) (junk : List Byte) (id i : Nat)
    (hj : (lexkey id).length + junk.length = 16) (hex : ∃ a ∈ as, a.id = id) (B : List Byte) (hB : B ≠ []) :
    ∃ a ∈ as, a.id = id ∧ FormOutcome (buildForm (engBuild as).images junk (some B) id i)
      ((a.delivered i).map (printed a.demand)) ((packed (a.delivered i)).length ≤ 256) B := by
  obtain ⟨pos, a, ha, h1, h2, -, h3⟩ := lid_present h hi junk id hj hex
  refine ⟨a, ha, h1, ?_⟩
  have hrun := formRun_outcome h i B (fun b : Article => b) [a] (by simpa using ha)
    (fun _ s => formBuild (engBuild as).images.flexTree i a.lowStem a.post ((engBuild as).infoFor a) s)
    (by intro p hp s; simp at hp; subst hp; rfl)
  have hb : buildForm (engBuild as).images junk (some B) id i
      = (runList (fun (_ : Article) s => formBuild (engBuild as).images.flexTree i a.lowStem a.post ((engBuild as).infoFor a) s)
          [a] ⟨⟨some B, 0⟩, 0⟩).map fun r => ((formResult r).1, (formResult r).2.buf) := by
    simp only [buildForm, if_neg (show ¬ B.length = 0 from fun h0 => hB (List.length_eq_zero_iff.1 h0)), h2, h3, bind,
      Option.bind_some, buildClass, (h.loads ha).1, pure, runList]
    cases formBuild (engBuild as).images.flexTree i a.lowStem a.post ((engBuild as).infoFor a) ⟨⟨some B, 0⟩, 0⟩ with
    | none => rfl
    | some z => obtain ⟨q, s⟩ := z; cases q <;> rfl
  rw [hb]
  simpa [deliveredAll] using hrun

theorem getWdInfo_eq {A : List Byte} {as : List Article} (h : EngOk A as) (hi : IdsOk as) (junk : List Byte) (id : Nat)
    (hj : (lexkey id).length + junk.length = 16) (hex : ∃ a ∈ as, a.id = id) :
    ∃ a ∈ as, a.id = id ∧ getWdInfo (engBuild as).images junk id = some (1, some a.pos) := by
  obtain ⟨pos, a, ha, h1, h2, ⟨rest, h3⟩, -⟩ := lid_present h hi junk id hj hex
  refine ⟨a, ha, h1, ?_⟩
  have hcl := (h.dict.entriesOk a.lowStem)
  have hid32 := h.ids a ha
  have hread : ∃ r w, ((engBuild as).images.stemtree.drop (pos + 2)) = putserial id ++ putword16 w ++ r ∧
      w &&& 0x7fff = ((engBuild as).entryFor a).oclass ∧ w < 65536 := by
    have hoc := (class_record_at (stateInv_build as).classes h.classes (engBuild_resolved as ha).1).1
    rw [← List.drop_drop, h3, Entry.ser]
    refine ⟨(if (((engBuild as).entryFor a).oclass |||
          if ((engBuild as).entryFor a).stpost.isEmpty = true then 0 else 0x8000) &&& 0x8000 ≠ 0 then
        putserial ((engBuild as).entryFor a).stpost.length ++ ((engBuild as).entryFor a).stpost else []) ++ rest,
      ((engBuild as).entryFor a).oclass ||| if ((engBuild as).entryFor a).stpost.isEmpty = true then 0 else 0x8000,
      ?_, ?_, ?_⟩
    · simp only [List.cons_append, List.nil_append, List.append_assoc, List.drop_succ_cons, List.drop_zero]
      rw [show ((engBuild as).entryFor a).nlexid = id from h1]
    · have hm : ∀ x, x &&& 0x7fff = x % 2 ^ 15 := fun x => by
        rw [show (0x7fff : Nat) = 2 ^ 15 - 1 by rfl, Nat.and_two_pow_sub_one_eq_mod]
      split
      · rw [Nat.or_zero, hm]; exact Nat.mod_eq_of_lt hoc
      · rw [Nat.or_comm]
        have := Nat.two_pow_add_eq_or_of_lt (i := 15) (b := ((engBuild as).entryFor a).oclass) hoc 1
        rw [show 2 ^ 15 * 1 = 0x8000 by rfl] at this
        rw [← this, hm]; omega
    · split
      · rw [Nat.or_zero]; omega
      · exact Nat.or_lt_two_pow (n := 16) (by omega) (by omega)
  obtain ⟨r, w, e1, e2, e3⟩ := hread
  simp only [getWdInfo, h2, bind, Option.bind_some, e1, List.append_assoc]
  rw [getserial_putserial (by omega)]
  simp only [Option.bind_some, getword16_putword16 e3, ne_eq, not_true_eq_false, if_false, e2, (h.loads ha).1, pure]
  congr 3
  rw [show ((engBuild as).infoFor a).wdinfo = a.wdinfo from rfl, wdinfo_and_3f a (h.pos a ha)]

/-! ### FindForms -/

theorem stemOf_match {as : List Article} {w junk : List Byte} {dwsets : Nat} {p : Article × List Byte}
    (hp : p ∈ Matches as w dwsets) :
    stemOf (w.map engTab.lower) junk ⟨p.2 ++ p.1.post ++ 0 :: junk, p.2.length⟩ = p.1.lowStem := by
  obtain ⟨a, e⟩ := p
  obtain ⟨-, h2, -, -⟩ := mem_Matches.1 hp
  simp only [Article.Form] at h2
  rw [h2, stemOf]
  have : ((a.lowStem ++ e ++ a.post ++ 0 :: junk).length - (e ++ a.post ++ 0 :: junk).length) = a.lowStem.length := by
    simp only [List.length_append]; omega
  rw [this]
  simp

theorem findForms_heard {A : List Byte} {as : List Article} (h : EngOk A as) (w junk : List Byte) (dwsets i : Nat)
    (hne : w ≠ []) (hlen : w.length < 48) (hparts : (wordParts engTab w).length ≤ 8)
    {V : List (Article × List Byte)} (hV : ScanOf as (w.map engTab.lower) V) (B : List Byte) (hB : B ≠ []) :
      FormOutcome (findForms (engBuild as).images junk (some B) w i dwsets)
        (deliveredAll ((heard V w dwsets).map Prod.fst) i)
        (∀ p ∈ heard V w dwsets, (packed (p.1.delivered i)).length ≤ 256) B := by
  have hp := heard_readings hV.visits dwsets
  have hr := word_scan w junk dwsets hne hlen hparts hV
  generalize heard V w dwsets = H at hp hr ⊢
  have hB0 : ¬ B.length = 0 := fun h0 => hB (List.length_eq_zero_iff.1 h0)
  rcases hr with ⟨h1, rfl⟩ | ⟨s, h1, h2⟩
  · have : findForms (engBuild as).images junk (some B) w i dwsets = some (0, some B) := by
      simp [findForms, h1, hB0]
    rw [this]
    refine ⟨fun _ _ => rfl, fun h0 => absurd rfl h0, ?_⟩
    rintro (hb | hb)
    · simp at hb
    · simp [deliveredAll] at hb
  · have hmem : ∀ p ∈ H, p ∈ Matches as w dwsets := fun p hpH => hp.mem hpH
    have hrun := formRun_outcome h i B Prod.fst H (fun p hpH => (mem_Matches.1 (hmem p hpH)).1) _
      (fun p hpH s => by
        show (fun (p : Article × List Byte) s => formBuild (engBuild as).images.flexTree i
          (stemOf (w.map engTab.lower) junk ⟨p.2 ++ p.1.post ++ 0 :: junk, p.2.length⟩) p.1.post ((engBuild as).infoFor p.1) s) p s = _
        simp only [stemOf_match (hmem p hpH)])
    have hb : findForms (engBuild as).images junk (some B) w i dwsets
        = (runList (fun (p : Article × List Byte) s => formBuild (engBuild as).images.flexTree i
          (stemOf (w.map engTab.lower) junk ⟨p.2 ++ p.1.post ++ 0 :: junk, p.2.length⟩) p.1.post ((engBuild as).infoFor p.1) s)
          H ⟨⟨some B, 0⟩, 0⟩).map fun r => ((formResult r).1, (formResult r).2.buf) := by
      simp only [findForms, h1, bind, Option.bind_some, if_neg hB0, h2, pure]
      cases runList (fun (p : Article × List Byte) s => formBuild (engBuild as).images.flexTree i
          (stemOf (w.map engTab.lower) junk ⟨p.2 ++ p.1.post ++ 0 :: junk, p.2.length⟩) p.1.post ((engBuild as).infoFor p.1) s)
          H ⟨⟨some B, 0⟩, 0⟩ <;> rfl
    rw [hb]
    exact hrun

end Libmorph
