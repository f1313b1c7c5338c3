import Verif.Lemmas.EngView
import Verif.Lemmas.CapFit
/-
The word scan of the English analyser, in terms of articles.
-/
namespace Libmorph

theorem reg_cupper (l : List (List Byte × Nat)) (t : FTable) :
    (l.foldl (fun t p => t.reg p.1 p.2) t).cupper = l.foldl (fun m p => max m (p.1.headD 0)) t.cupper := by
  induction l generalizing t with
  | nil => rfl
  | cons p l ih => rw [List.foldl_cons, List.foldl_cons, ih]; rfl

theorem EngOk.top {A : List Byte} {as : List Article} (h : EngOk A as) {a : Article} (ha : a ∈ as) :
    ((engBuild as).entryFor a).chrmax = a.topLetter := by
  simp only [EngState.entryFor]
  by_cases hinf : a.Inflected
  · have hi := stateInv_build as
    have hlen : 4 + tabsLen (engBuild as).box.tabs < 65536 := by rw [← box_image_length]; exact h.flexes
    obtain ⟨-, -, b3, -⟩ := box_table_at hi.box hlen ((engBuild_resolved as ha).2 hinf)
    rw [b3, parseTable_eq, reg_cupper]
    simp [Article.topLetter, Article.endings, hinf]
  · simp [EngState.tableFor, hinf, Article.topLetter, Article.endings]

theorem EngOk.safe {A : List Byte} {as : List Article} (h : EngOk A as) {w : List Byte} (hs : SuffixSafe as w) :
    ∀ k rest, k ++ rest = w → Safe (filedUnder (engBuild as).entries k) rest := by
  rintro k rest rfl
  refine (filedUnder_sorted _ k).imp_of_mem ?_
  intro e0 e h0 h1 hle hp hsuf hne b hb
  rw [mem_filedUnder, engBuild_entries, List.mem_map] at h0 h1
  obtain ⟨a0, ha0, e0h⟩ := h0
  obtain ⟨a, ha, eh⟩ := h1
  simp only [Prod.mk.injEq] at e0h eh
  obtain ⟨hk0, rfl⟩ := e0h
  obtain ⟨hk, rfl⟩ := eh
  rw [h.top ha0]
  rw [h.top ha0, h.top ha] at hle
  have hp : a.post = rest := hp
  subst hp
  exact hs a ha (by rw [hk]) b hb a0 ha0 (by rw [hk, hk0]) hsuf hne hle

theorem perm_map {α β : Type} {l : List β} {f : α → β} {m : List α} (h : l.Perm (m.map f)) :
    ∃ m' : List α, m'.Perm m ∧ l = m'.map f := by
  generalize hk : m.map f = k at h
  induction h generalizing m with
  | nil => exact ⟨m, List.Perm.refl _, hk.symm⟩
  | cons x _ ih =>
    cases m with
    | nil => simp at hk
    | cons a m =>
      simp only [List.map_cons, List.cons.injEq] at hk
      obtain ⟨m', h1, h2⟩ := ih hk.2
      exact ⟨a :: m', h1.cons a, by rw [List.map_cons, hk.1, h2]⟩
  | swap x y l =>
    match m, hk with
    | a :: b :: m, hk =>
      simp only [List.map_cons, List.cons.injEq] at hk
      exact ⟨b :: a :: m, List.Perm.swap _ _ _, by simp [hk.1, hk.2.1, hk.2.2]⟩
  | trans _ _ ih1 ih2 =>
    obtain ⟨m2, h1, h2⟩ := ih2 hk
    obtain ⟨m3, h3, h4⟩ := ih1 h2.symm
    exact ⟨m3, h3.trans h1, h4⟩

/-- The grammatical descriptions a collector receives for an article and an ending. -/
def Article.grams (a : Article) (e : List Byte) : List Gram :=
  if a.Inflected then (a.idsOf e).map fun i => ⟨a.pos, i, 0, 0⟩ else [⟨0, 0, 0, 0⟩]

/-- What `matchClass` does with an article's entry and an ending. -/
theorem matchClass_article {A : List Byte} {as : List Article} (h : EngOk A as) {a : Article} (ha : a ∈ as)
    {σ ρ : Type} (scheme dwsets : Nat) (target : Target σ ρ) (e after suffix : List Byte) (s : σ) :
    matchClass (engBuild as).images scheme dwsets target a.id ((engBuild as).entryFor a).oclass
        ⟨e ++ after, e.length⟩ suffix s
      = if (dwsets &&& 2 ≠ 0 || isGood scheme a.demand) && a.takes e then
          target a.id ((engBuild as).infoFor a) ⟨e ++ after, e.length⟩ suffix (a.grams e) s
        else some (none, s) := by
  obtain ⟨l1, l2⟩ := h.loads ha
  have hp := h.pos a ha
  have hmin : ((engBuild as).infoFor a).minCap = a.demand := minCap_value a hp _
  simp only [matchClass, l1, bind, Option.bind, hmin, pure]
  by_cases hcap : (dwsets &&& 2 ≠ 0 || isGood scheme a.demand) = true
  · have hcap' : (decide (dwsets &&& sfIgnoreCapitals = 0) && !isGood scheme a.demand) = false := by
      simp only [sfIgnoreCapitals]
      by_cases h2 : dwsets &&& 2 = 0
      · have hg : isGood scheme a.demand = true := by simpa [h2] using hcap
        simp [hg]
      · simp [h2]
    rw [if_neg (by rw [hcap']; simp), hcap, Bool.true_and]
    simp only [StemInfo.flexTable]
    by_cases hinf : a.Inflected
    · obtain ⟨t1, rest, t2⟩ := l2.table hinf
      have ht := l2.tableOf hinf
      rw [if_pos t1]
      simp only
      have hids := idsOf_table h ha ht e
      have hgf : gramsFor a.wdinfo ((engBuild as).tableFor a).items e = a.grams e := by
        simp only [gramsFor, Article.grams, if_pos hinf, wdinfo_and_7f a hp, ← hids, List.map_map]
        rfl
      have hsc := scanTables_eq a.wdinfo e after rest ((engBuild as).tableFor a) ht.sorted
        (by
          intro x hx
          obtain ⟨p, hp, rfl⟩ := List.mem_map.1 (ht.perm.mem_iff.1 hx)
          exact (h.ends a ha p hp).1)
        (by rw [ht.perm.length_eq, List.length_map]; exact h.few a ha)
        (by
          rw [gramsFor, List.length_map]
          have h64 := h.equal a ha e
          have := congrArg List.length hids
          rw [List.length_map] at this
          rw [this, Article.idsOf, List.length_mergeSort, List.length_map]
          exact h64)
      have hwd : ((engBuild as).infoFor a).wdinfo = a.wdinfo := rfl
      rw [t2, hwd, hsc, hgf]
      simp only [Article.takes, if_pos hinf]
      by_cases hne : a.idsOf e = []
      · rw [if_neg (by simp [Article.grams, hinf, hne]), if_neg (by simp [hne])]
      · rw [if_pos, if_pos (by simp [hne])]
        simp only [Article.grams, if_pos hinf, List.length_map]
        intro h0; exact hne (List.length_eq_zero_iff.1 h0)
    · have hz : ((engBuild as).infoFor a).tfoffs = 0 := l2.plain hinf
      rw [if_neg (by simp [hz])]
      simp only [Article.takes, if_neg hinf]
      by_cases he : e = []
      · subst he
        have hinfo : (⟨((engBuild as).infoFor a).wdinfo, 0⟩ : StemInfo) = (engBuild as).infoFor a := by
          rw [← hz]
        rw [hinfo, hz]
        simp [Article.grams, hinf]
      · rw [if_neg (by simpa using fun h0 => he (List.length_eq_zero_iff.1 h0)), if_neg (by simpa using he)]
  · have hcap1 : (dwsets &&& 2 ≠ 0 || isGood scheme a.demand) = false := by simpa using hcap
    have hcap' : (decide (dwsets &&& sfIgnoreCapitals = 0) && !isGood scheme a.demand) = true := by
      simp only [sfIgnoreCapitals]
      simpa using hcap1
    rw [if_pos hcap', hcap1]
    simp

/-- An article's ending lies within the first-letter bounds of its entry. -/
theorem EngOk.bounds {A : List Byte} {as : List Article} (h : EngOk A as) {a : Article} (ha : a ∈ as) {e : List Byte}
    (ht : a.takes e = true) : ∀ b, e.head? = some b →
      ((engBuild as).entryFor a).chrmin ≤ b ∧ b ≤ ((engBuild as).entryFor a).chrmax := by
  intro b hb
  by_cases hinf : a.Inflected
  · simp only [Article.takes, if_pos hinf, decide_eq_true_eq] at ht
    obtain ⟨i, hi⟩ := List.exists_mem_of_ne_nil _ ht
    rw [mem_idsOf] at hi
    have := ((h.loads ha).2.tableOf hinf).bounds _ hi
    have hh : e.headD 0 = b := by
      cases e with
      | nil => simp at hb
      | cons c e => simpa using hb
    simp only [hh] at this
    exact this
  · simp only [Article.takes, if_neg hinf, decide_eq_true_eq] at ht
    subst ht; simp at hb

/-- `V`: the articles the scan of a word comes across, with their endings: all have the word as a form (or
have its stem and suffix at least), longer stems come first, no article is met more often than it is
listed, and when no form is at risk (`SuffixSafe`) none that has the word as a form is missed. -/
structure Visits (as : List Article) (w : List Byte) (V : List (Article × List Byte)) : Prop where
  form : ∀ p ∈ V, p.1 ∈ as ∧ p.1.Form w p.2
  sub : ∀ ok, (V.filter fun q => ok q.1.demand && q.1.takes q.2).Subperm (matchesOf as ok w)
  full : SuffixSafe as w → ∀ ok, (V.filter fun q => ok q.1.demand && q.1.takes q.2).Perm (matchesOf as ok w)
  order : V.Pairwise fun p q => q.1.lowStem.length ≤ p.1.lowStem.length

/-- The whole scan of a word: the collector receives the matching articles among those visited; these
depend neither on capitals nor on settings. -/
theorem scanWord_visits {A : List Byte} {as : List Article} (h : EngOk A as) (w : List Byte) (hw : w.length < 48) :
    ∃ V : List (Article × List Byte), Visits as w V ∧
      ∀ (junk : List Byte) (scheme dwsets : Nat), scheme >>> 16 = w.length →
      ∀ {σ ρ : Type} (target : Target σ ρ) (s : σ),
        scanWord (engBuild as).images w junk scheme dwsets target s
          = runList (fun p => target p.1.id ((engBuild as).infoFor p.1)
              ⟨p.2 ++ p.1.post ++ 0 :: junk, p.2.length⟩ p.1.post (p.1.grams p.2))
            (V.filter fun q => (decide (dwsets &&& 2 ≠ 0) || isGood (scheme % 65536) q.1.demand) && q.1.takes q.2) s := by
  set st := engBuild as with hst
  have hperm := allHits_perm st.entries w
  rw [hst, engBuild_entries as, ← hst, List.filterMap_map] at hperm
  set pick : Article → Option (Article × List Byte) := fun a =>
    if a.lowStem <+: w then ((st.entryFor a).flexOf (w.drop a.lowStem.length)).map fun x => (a, x) else none with hpick
  have hf : (as.filterMap ((fun p : List Byte × Entry =>
      if p.1 <+: w then (p.2.flexOf (w.drop p.1.length)).map fun x => (p.1, p.2, x) else none) ∘
        fun a => (a.lowStem, st.entryFor a)))
      = (as.filterMap pick).map fun q => (q.1.lowStem, st.entryFor q.1, q.2) := by
    rw [List.map_filterMap]
    apply List.filterMap_congr
    intro a _
    simp only [Function.comp, hpick]
    split
    · rw [Option.map_map]; rfl
    · rfl
  rw [hf, ← engBuild_entries as, ← hst] at hperm
  obtain ⟨m', hm1, hm2⟩ := perm_map hperm
  have hsub := allSeen_sublist st.entries w
  rw [hm2, List.sublist_map_iff] at hsub
  obtain ⟨V, hV1, hV2⟩ := hsub
  have hmatch : ∀ ok : Nat → Bool, (m'.filter (fun q => ok q.1.demand && q.1.takes q.2)).Perm (matchesOf as ok w) := by
    intro ok
    refine (hm1.filter _).trans (List.Perm.of_eq ?_)
    rw [List.filter_filterMap, matchesOf]
    apply List.filterMap_congr
    intro a ha
    simp only [hpick]
    by_cases hpre : a.lowStem <+: w
    · rw [if_pos hpre]
      obtain ⟨rest, rfl⟩ := hpre
      rw [List.drop_left]
      cases hfx : (st.entryFor a).flexOf rest with
      | none =>
        simp only [Option.map_none, Option.filter_none]
        cases hen : a.endingIn (a.lowStem ++ rest) with
        | none => rfl
        | some e =>
          rw [Article.endingIn_iff, Article.Form, List.append_assoc, List.append_cancel_left_eq] at hen
          subst hen
          simp only [Option.bind_some]
          rw [if_neg]
          intro hc
          simp only [Bool.and_eq_true] at hc
          have := h.bounds ha hc.1
          have hfit : (st.entryFor a).flexOf (e ++ a.post) = some e := (Entry.flexOf_iff _ _ _).2 ⟨rfl, this⟩
          rw [hfit] at hfx; simp at hfx
      | some x =>
        rw [Entry.flexOf_iff] at hfx
        have hen : a.endingIn (a.lowStem ++ rest) = some x := by
          rw [Article.endingIn_iff, Article.Form, List.append_assoc]
          rw [hfx.1]; rfl
        rw [hen]
        simp only [Option.map_some, Option.bind_some, Bool.and_comm]
        by_cases hc : (ok a.demand && a.takes x) = true
        · rw [Option.filter_some, if_pos hc]
        · rw [Option.filter_some, if_neg hc]
    · rw [if_neg hpre]
      have hen : a.endingIn w = none := by
        cases hen : a.endingIn w with
        | none => rfl
        | some e =>
          exfalso
          rw [Article.endingIn_iff] at hen
          apply hpre
          rw [hen, List.append_assoc]; exact List.prefix_append _ _
      rw [hen]; rfl
  have hform : ∀ p ∈ m', p.1 ∈ as ∧ p.1.Form w p.2 := by
    rintro ⟨a, x⟩ hax
    have hmem := hm1.mem_iff.1 hax
    rw [List.mem_filterMap] at hmem
    obtain ⟨a', ha', hpk⟩ := hmem
    simp only [hpick] at hpk
    split at hpk
    · rename_i hpre
      rw [Option.map_eq_some_iff] at hpk
      obtain ⟨y, hy1, hy⟩ := hpk
      obtain ⟨rfl, rfl⟩ := Prod.mk.inj hy
      refine ⟨ha', ?_⟩
      obtain ⟨rest, rfl⟩ := hpre
      rw [List.drop_left, Entry.flexOf_iff] at hy1
      simp only [Article.Form, List.append_assoc]
      rw [hy1.1]; rfl
    · simp at hpk
  refine ⟨V, ⟨fun p hp => hform p (hV1.subset hp), ?_, ?_, ?_⟩, ?_⟩
  · intro ok
    exact (hV1.filter _).subperm.trans (hmatch ok).subperm
  · intro hs ok
    have : V = m' := by
      have hall := allSeen_eq st.entries w (h.safe hs)
      apply hV1.eq_of_length
      have := congrArg List.length hall
      rw [hV2, hm2, List.length_map, List.length_map] at this
      exact this
    rw [this]; exact hmatch ok
  · have := allSeen_order st.entries w
    rw [hV2, List.pairwise_map] at this
    exact this
  · intro junk scheme dwsets hsch σ ρ target s
    simp only [scanWord]
    have := scanDict_seen h.dict (matchClass st.images (scheme % 65536) dwsets target) w (0 :: junk) [] (by
      have : maxLevels = 64 := rfl
      omega) s
    rw [List.append_nil] at this
    rw [hsch, show st.images.stemtree = stemImage (fileAll st.entries) from rfl, this]
    rw [← hst, hV2, runList_map, ← List.filterMap_eq_filter]
    refine runList_filterMap _ _ _ ?_
    rintro ⟨a', x⟩ hax s
    have ha' := (hform _ (hV1.subset hax)).1
    simp only at ha' ⊢
    have := matchClass_article h ha' (scheme % 65536) dwsets target x (a'.post ++ 0 :: junk) a'.post s
    rw [← hst] at this
    rw [List.append_assoc]
    have hid : (st.entryFor a').nlexid = a'.id := rfl
    have hpo : (st.entryFor a').stpost = a'.post := rfl
    rw [hid, hpo, this]
    simp only [Option.guard]
    by_cases hc : ((decide (dwsets &&& 2 ≠ 0) || isGood (scheme % 65536) a'.demand) && a'.takes x) = true
    · rw [if_pos hc, if_pos hc]; simp only [List.append_assoc]
    · rw [if_neg hc, if_neg hc]

end Libmorph
