import Verif.Lemmas.EngWildScan
import Verif.Spec.EngSample
/-! C30, C31 — wildcard search (`FindMatch`), English. -/
namespace Libmorph

/-- The outcome of a search: the client gets, call by call, exactly the forms to be found; the result is its answer to
the last call, 0 when there was none.  When no asterisk but the last character is in the template and lexeme ids are
unique, there is one call per lexeme. -/
theorem C31_exact_partial {A : List Byte} {as : List Article} (h : EngOk A as) (hw : WildOk as)
    (tail smatch : List Byte) (htail : tail ≠ []) (hbuf : smatch.length = 48)
    (client : List (Nat × List StrMatch) → Int) (str : List Byte) (hne : str ≠ []) (hlen : str.length < 48)
    (hparts : (wordParts engTab str).length ≤ 8) :
    ∃ C, findMatch (engBuild as).images tail smatch client str = some (if C = [] then 0 else client C, C) ∧
      WildCalls (WildFound as (str.map engTab.lower)) C ∧
      (StarLast (str.map engTab.lower) → (as.map Article.id).Nodup → (C.map Prod.fst).Nodup) := by
  let T := str.map engTab.lower
  let l := (engBuild as).entries
  have hl : l = as.map fun a => (a.lowStem, (engBuild as).entryFor a) := engBuild_entries as
  have himg : (engBuild as).images.stemtree = stemImage (fileAll l) := rfl
  have hmem : ∀ k e, (k, e) ∈ l → ∃ a ∈ as, k = a.lowStem ∧ e = (engBuild as).entryFor a := by
    intro k e hk
    rw [hl] at hk
    obtain ⟨a, ha, h1⟩ := List.mem_map.1 hk
    simp only [Prod.mk.injEq] at h1
    exact ⟨a, ha, h1.1.symm, h1.2.symm⟩
  have hin : ∀ a ∈ as, (a.lowStem, (engBuild as).entryFor a) ∈ l := by
    intro a ha; rw [hl]; exact List.mem_map.2 ⟨a, ha, rfl⟩
  obtain ⟨L, l1, l2, l3, -⟩ := wildScan_dict (cap := 48) (reg := engRegE) h.dict (target := engWildTarget (engBuild as).images engReg)
    (EV := fun e k r => wildEventsOf (engBuild as).images e k r)
    (by
      intro k e r hk
      obtain ⟨a, ha, rfl, rfl⟩ := hmem k e hk
      have := engTarget_emits h hw (Nat.le_refl 48) ha r
      rw [← wildEventsOf_article h ha r] at this
      exact this)
    (by
      rintro ⟨k, e⟩ hk
      obtain ⟨a, ha, rfl, rfl⟩ := hmem k e hk
      exact hw.stems a ha)
    (by omega) tail htail T
  let E := L.flatMap fun v => ((filedUnder l v.1).filter fun e => e.admits v.2).flatMap fun e => wildEventsOf (engBuild as).images e v.1 v.2
  have hE : ∀ id m, (id, m) ∈ E ↔ WildFound as T id m := by
    intro id m
    simp only [E, List.mem_flatMap, List.mem_filter]
    constructor
    · rintro ⟨⟨k, r⟩, hv, e, ⟨he, had⟩, hm⟩
      obtain ⟨a, ha, hk, rfl⟩ := hmem k e (mem_filedUnder.1 he)
      simp only at hk hm had
      subst hk
      rw [wildEventsOf_article h ha r] at hm
      have hid : id = a.id := (mem_wildEvents.1 hm).1
      subst hid
      exact ⟨a, ha, rfl, (article_found h ha T m).1 ⟨r, ((l2 _ _).1 hv).2, had, hm⟩⟩
    · rintro ⟨a, ha, rfl, hf⟩
      obtain ⟨r, h1, h2, h3⟩ := (article_found h ha T m).2 hf
      refine ⟨(a.lowStem, r), (l2 _ _).2 ⟨⟨_, hin a ha⟩, h1⟩, _, ⟨mem_filedUnder.2 (hin a ha), h2⟩, ?_⟩
      rw [wildEventsOf_article h ha r]
      exact h3
  obtain ⟨s, s1, s2, s3⟩ := reg_all (E := E)
    (by
      rintro ⟨id, m⟩ hm
      obtain ⟨a, ha, rfl, -⟩ := (hE id m).1 hm
      exact hw.ids a ha)
    (by
      rintro ⟨id, m⟩ hm
      obtain ⟨a, ha, rfl, h1, -⟩ := (hE id m).1 hm
      exact hw.short a ha m h1)
    (fun id => (as.filter fun a => a.id = id).flatMap Article.wildForms) hw.few
    (by
      rintro ⟨id, m⟩ hm
      obtain ⟨a, ha, rfl, h1, -⟩ := (hE id m).1 hm
      exact List.mem_flatMap.2 ⟨a, by simp [ha], h1⟩)
  have hrun := l1 smatch {} hbuf (List.nil_prefix)
  rw [s1] at hrun
  obtain ⟨buf', r1, -, -⟩ := hrun
  obtain ⟨sc, c1, -⟩ := capGet_summary engTab engTab_ok formLength str hne hlen (by decide) hparts
  refine ⟨s.all, ?_, ?_, ?_⟩
  · have h0 : ¬ str.length = 0 := by simpa using hne
    have h1 : ¬ str.length ≥ formLength := by simp only [formLength]; omega
    simp only [findMatch, h0, h1, if_false, c1, bind, Option.bind_some, himg]
    rw [r1]
    simp only [Option.bind_some, pure]
    rw [finish_eq client s2]
  · obtain ⟨w1, w2, w3, w4⟩ := s2.calls
    exact ⟨fun id m => by rw [w1, hE], w2, w3, w4⟩
  · intro hstar huniq
    rw [s3]
    have hpw := l3 hstar
    -- the entries in the order of the visits
    let B : List ((List Byte × List Byte) × Entry) := L.flatMap fun v => ((filedUnder l v.1).filter fun e => e.admits v.2).map fun e => (v, e)
    have hEB : E.map Prod.fst = B.flatMap fun b => (wildEventsOf (engBuild as).images b.2 b.1.1 b.1.2).map Prod.fst := by
      simp only [E, B, List.map_flatMap, List.flatMap_assoc, List.flatMap_map]
    rw [hEB]
    have hBmem : ∀ b ∈ B, (b.1.1, b.2) ∈ l := by
      rintro ⟨v, e⟩ hb
      simp only [B, List.mem_flatMap, List.mem_map, List.mem_filter] at hb
      obtain ⟨v', -, e', ⟨he, -⟩, hbe⟩ := hb
      simp only [Prod.mk.injEq] at hbe
      obtain ⟨rfl, rfl⟩ := hbe
      exact mem_filedUnder.1 he
    refine visitIds_nodup (key := fun b => b.2.nlexid) ?_ ?_
    · intro b hb x hx
      obtain ⟨⟨id, m⟩, hm, rfl⟩ := List.mem_map.1 hx
      obtain ⟨a, ha, hk, he⟩ := hmem _ _ (hBmem b hb)
      rw [hk, he, wildEventsOf_article h ha] at hm
      rw [he]
      exact (mem_wildEvents.1 hm).1
    · have hnodup : (l.map fun p => p.2.nlexid).Nodup := by
        rw [hl, List.map_map]; exact huniq
      rw [show (B.map fun b => b.2.nlexid) = L.flatMap fun v => (((filedUnder l v.1).filter fun e => e.admits v.2).map Entry.nlexid) by
        simp only [B, List.map_flatMap, List.map_map]; rfl]
      rw [List.nodup_flatMap]
      constructor
      · intro v _
        have hp : (filedUnder l v.1).Perm ((l.filter fun p => p.1 = v.1).map Prod.snd) := filedUnder_perm l v.1
        refine List.Nodup.sublist (List.filter_sublist.map _) ?_
        refine ((hp.map Entry.nlexid).nodup_iff).2 ?_
        rw [List.map_map]
        exact List.Nodup.sublist (List.filter_sublist.map _) hnodup
      · refine hpw.imp ?_
        intro v v' hvv x hx hx'
        obtain ⟨e, he, rfl⟩ := List.mem_map.1 hx
        obtain ⟨e', he', h3⟩ := List.mem_map.1 hx'
        have m1 := mem_filedUnder.1 (List.mem_of_mem_filter he)
        have m2 := mem_filedUnder.1 (List.mem_of_mem_filter he')
        have := List.inj_on_of_nodup_map hnodup m1 m2 h3.symm
        simp only [Prod.mk.injEq] at this
        exact hvv this.1

/-- C30: every reported form matches the template (in small letters) and is a form, with that number, of an article
with that lexeme id. -/
theorem C30_sound {A : List Byte} {as : List Article} (h : EngOk A as) (hw : WildOk as)
    (tail smatch : List Byte) (htail : tail ≠ []) (hbuf : smatch.length = 48)
    (client : List (Nat × List StrMatch) → Int) (str : List Byte) (hne : str ≠ []) (hlen : str.length < 48)
    (hparts : (wordParts engTab str).length ≤ 8) :
    ∃ n C, findMatch (engBuild as).images tail smatch client str = some (n, C) ∧
      ∀ c ∈ C, ∀ m ∈ c.2, WildMatch (str.map engTab.lower) m.text ∧
        ∃ a ∈ as, a.id = c.1 ∧
          ((a.Inflected ∧ ∃ e, (e, m.id) ∈ a.endings ∧ m.text = a.lowStem ++ e ++ a.post) ∨
           (¬ a.Inflected ∧ m.id = 255 ∧ m.text = a.lowStem)) := by
  obtain ⟨C, h1, h2, -⟩ := C31_exact_partial h hw tail smatch htail hbuf client str hne hlen hparts
  refine ⟨_, C, h1, ?_⟩
  intro c hc m hm
  obtain ⟨a, ha, hid, hf, hmatch, hinf⟩ := (h2.mem c.1 m).1 ⟨c, hc, rfl, hm⟩
  refine ⟨hmatch, a, ha, hid, ?_⟩
  by_cases hi : a.Inflected
  · obtain ⟨e, he, ht, -⟩ := hinf hi
    exact Or.inl ⟨hi, e, he, ht⟩
  · rw [Article.wildForms, if_neg hi, List.mem_singleton] at hf
    subst hf
    exact Or.inr ⟨hi, rfl, rfl⟩

/-- C31, for the forms the search does not lose: every form that matches the template is reported under its lexeme id
with its number, if it belongs to an inflected article and has an ending that is not empty, or to an article without a
suffix. -/
theorem C31_complete_partial {A : List Byte} {as : List Article} (h : EngOk A as) (hw : WildOk as)
    (tail smatch : List Byte) (htail : tail ≠ []) (hbuf : smatch.length = 48)
    (client : List (Nat × List StrMatch) → Int) (str : List Byte) (hne : str ≠ []) (hlen : str.length < 48)
    (hparts : (wordParts engTab str).length ≤ 8) :
    ∃ n C, findMatch (engBuild as).images tail smatch client str = some (n, C) ∧
      (∀ a ∈ as, ∀ e i, (e, i) ∈ a.endings → (e ≠ [] ∨ a.post = []) →
        WildMatch (str.map engTab.lower) (a.lowStem ++ e ++ a.post) → ∃ c ∈ C, c.1 = a.id ∧ ⟨a.lowStem ++ e ++ a.post, i⟩ ∈ c.2) ∧
      (∀ a ∈ as, ¬ a.Inflected → a.post = [] → WildMatch (str.map engTab.lower) a.lowStem →
        ∃ c ∈ C, c.1 = a.id ∧ ⟨a.lowStem, 255⟩ ∈ c.2) := by
  obtain ⟨C, h1, h2, -⟩ := C31_exact_partial h hw tail smatch htail hbuf client str hne hlen hparts
  refine ⟨_, C, h1, ?_, ?_⟩
  · intro a ha e i he hep hm
    have hi : a.Inflected := by
      by_contra hi; simp [Article.endings, hi] at he
    refine (h2.mem a.id _).2 ⟨a, ha, rfl, ?_, hm, fun _ => ⟨e, he, rfl, ?_⟩⟩
    · rw [Article.wildForms, if_pos hi]; exact List.mem_map.2 ⟨_, he, rfl⟩
    · rcases hep with h0 | h0
      · exact Or.inl h0
      · exact Or.inr (Or.inl h0)
  · intro a ha hi _ hm
    refine (h2.mem a.id _).2 ⟨a, ha, rfl, ?_, hm, fun h0 => absurd h0 hi⟩
    rw [Article.wildForms, if_neg hi]; simp

/-! ### The limits are met, and what lies outside -/

theorem flatMap_sublist {α β : Type} {f : α → List β} {l m : List α} (h : l.Sublist m) : (l.flatMap f).Sublist (m.flatMap f) := by
  induction h with
  | slnil => exact List.Sublist.refl _
  | cons a _ ih => rw [List.flatMap_cons]; exact ih.trans (List.sublist_append_right _ _)
  | cons_cons a _ ih => rw [List.flatMap_cons, List.flatMap_cons]; exact (List.Sublist.refl _).append ih

theorem engSample_wild : WildOk engSample := by
  refine ⟨by decide +kernel, by decide, by decide +kernel, by decide +kernel, by decide, ?_⟩
  intro id
  have h : (engSample.flatMap Article.wildForms).length ≤ 256 := by decide +kernel
  refine Nat.le_trans ?_ h
  have hs : ((engSample.filter fun a => a.id = id).flatMap Article.wildForms).Sublist (engSample.flatMap Article.wildForms) :=
    flatMap_sublist (List.filter_sublist)
  exact hs.length_le

/-- "b*s" finds "brothers" only: "brothers-in-law" does not end in "s". -/
example : findMatch (engBuild engSample).images [0] (List.replicate 48 0) (fun _ => 7) [98, 42, 115]
    = some (7, [(300, [⟨[98, 114, 111, 116, 104, 101, 114, 115], 1⟩])]) := by decide +kernel

/-- Several asterisks: the same lexemes are reported again ("*r*" reports "brother" twice). -/
theorem C31_reported_twice :
    (findMatch (engBuild engSample).images [0] (List.replicate 48 0) (fun _ => 0) [42, 114, 42]).map (fun r => r.2.map Prod.fst)
      = some [7, 300, 44344, 300, 44344] := by decide +kernel

/-- "in|0|'s N post:-law". -/
def inLawWild : List Article := [⟨[105, 110], [124, 48, 124, 39, 115], 1, [45, 108, 97, 119], 5⟩]

theorem inLawWild_ok : EngOk [105, 110] inLawWild := by
  refine ⟨by decide, by decide, by decide +kernel, by decide, by decide, by decide, by decide, by decide, by decide +kernel, ?_,
    by decide +kernel, by decide, by decide +kernel, by decide +kernel, by decide +kernel⟩
  intro a ha e
  have h : ∀ a ∈ inLawWild, a.endings.length ≤ 64 := by decide +kernel
  exact Nat.le_trans (List.length_filter_le _ _) (h a ha)

/-- C31 fails: the form "in-law" (empty ending, suffix "-law") matches the template "in-law" and is accepted by
CheckWord, but is not found. -/
theorem C31_counterexample :
    findMatch (engBuild inLawWild).images [0] (List.replicate 48 0) (fun _ => 1) [105, 110, 45, 108, 97, 119] = some (0, []) ∧
    checkWord (engBuild inLawWild).images [0] [105, 110, 45, 108, 97, 119] 0 = some 1 ∧
    (∀ a ∈ inLawWild, a.HasForm [105, 110, 45, 108, 97, 119]) ∧ WildMatch [105, 110, 45, 108, 97, 119] [105, 110, 45, 108, 97, 119] := by
  refine ⟨by decide +kernel, by decide +kernel, ?_, ?_⟩
  · intro a ha
    simp only [inLawWild, List.mem_singleton] at ha
    subst ha
    have hi : Article.Inflected ⟨[105, 110], [124, 48, 124, 39, 115], 1, [45, 108, 97, 119], 5⟩ := by decide
    rw [Article.HasForm, if_pos hi]
    exact ⟨[], 0, by decide +kernel, by rw [Article.Form]; decide +kernel⟩
  · repeat (first | exact .nil | refine .same (by decide) (by decide) ?_)

/-- An uninflected article with a suffix: a search reports the stem, which is not a form of it. -/
theorem C31_plain_suffix :
    findMatch (engBuild [⟨[105, 110], [], 3, [45, 108, 97, 119], 5⟩]).images [0] (List.replicate 48 0) (fun _ => 1) [105, 110, 42]
      = some (1, [(5, [⟨[105, 110], 255⟩])]) ∧
    findMatch (engBuild [⟨[105, 110], [], 3, [45, 108, 97, 119], 5⟩]).images [0] (List.replicate 48 0) (fun _ => 1) [105, 110, 45, 108, 97, 119]
      = some (0, []) := by
  constructor <;> decide +kernel

/-- The hypotheses on the lexeme id and on the memory behind the image are needed: with the id 0 the search writes
through an uninitialized pointer; the scan reads the byte behind the image. -/
theorem C31_undefined :
    findMatch (engBuild [⟨[105, 110], [], 3, [], 0⟩]).images [0] (List.replicate 48 0) (fun _ => 1) [105, 110] = none ∧
    findMatch (engBuild engSample).images [] (List.replicate 48 0) (fun _ => 1) [63, 42] = none ∧
    (findMatch (engBuild engSample).images [0] (List.replicate 48 0) (fun _ => 1) [63, 42]).isSome := by
  refine ⟨?_, ?_, ?_⟩ <;> decide +kernel

/-- A template of 48 or more bytes is refused, an empty one finds nothing. -/
theorem C30_argument (im : Images) (tail smatch : List Byte) (client : List (Nat × List StrMatch) → Int) (str : List Byte) :
    (str = [] → findMatch im tail smatch client str = some (0, [])) ∧
    (48 ≤ str.length → findMatch im tail smatch client str = some (-4, [])) := by
  constructor
  · rintro rfl; rfl
  · intro h
    have h0 : ¬ str.length = 0 := by omega
    have h1 : str.length ≥ formLength := h
    simp only [findMatch, h0, h1, if_false, if_true]
    rfl

end Libmorph
