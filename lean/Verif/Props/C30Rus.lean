import Verif.Lemmas.RusWild
import Verif.Spec.RusSample
/-! C30, C31 — wildcard search (`FindMatch`), Russian. -/
namespace Libmorph
open Libmorph.Spec

variable {A : List Byte} {D : RusDict} {st : RusState}

/-- The events of an entry, collected. -/
def wildCollect (im : RusImages) (e : Entry) (k r : List Byte) : List (Nat × StrMatch) :=
  ((rusWildTarget im (regOf fun ev s => some (s ++ [ev])) e.nlexid e.oclass r e.stpost k.length
    (k ++ List.replicate (48 - k.length) 0, [])).map fun x => x.2.2).getD []

theorem collect_emits {ε : Type} {k : List Byte} (hk : k.length ≤ 48) {f : WildRun (List ε)} {E : List ε}
    (h : Emits 48 (fun ev s => some (s ++ [ev])) k f E) :
    ((f (k ++ List.replicate (48 - k.length) 0, [])).map fun x => x.2.2).getD [] = E := by
  have hf : ∀ (E s : List ε), E.foldlM (fun s e => some (s ++ [e])) s = some (s ++ E) := by
    intro E
    induction E with
    | nil => intro s; simp
    | cons e E ih => intro s; rw [List.foldlM_cons]; simp only [bind, Option.bind]; rw [ih]; simp
  have := h (k ++ List.replicate (48 - k.length) 0) [] (by simp; omega) (List.prefix_append _ _)
  rw [hf] at this
  obtain ⟨buf, h1, -⟩ := this
  rw [h1]
  simp

theorem perm_map_lift {α β : Type} {f : α → β} : ∀ {l' : List β} {l : List α}, l'.Perm (l.map f) → ∃ l'' : List α, l''.Perm l ∧ l''.map f = l' := by
  intro l'
  induction l' with
  | nil =>
    intro l h
    have := h.symm.eq_nil
    exact ⟨[], by rw [List.map_eq_nil_iff.1 this], rfl⟩
  | cons b t ih =>
    intro l h
    obtain ⟨a, ha, hab⟩ := List.mem_map.1 (h.mem_iff.1 (by simp : b ∈ b :: t))
    obtain ⟨l1, l2, rfl⟩ := List.append_of_mem ha
    have hp : (b :: t).Perm (b :: (l1 ++ l2).map f) := by
      refine h.trans ?_
      rw [List.map_append, List.map_cons, hab, List.map_append]
      exact List.perm_middle
    obtain ⟨l'', h1, h2⟩ := ih hp.cons_inv
    exact ⟨a :: l'', (h1.cons a).trans List.perm_middle.symm, by rw [List.map_cons, h2, hab]⟩

theorem rus_article_found (h : RusOk A D st) {a : RusArticle} (ha : a ∈ D.arts) (T : List Byte) (x : WildHit) :
    (∃ r, WildRest T a.stem r ∧ (st.entryFor D a).admits r = true ∧ D.HitWith a r x) ↔ x.art = a ∧ D.WildFound T x := by
  have hbounds := (h.resolved ha).2.1
  have hadm : ∀ c r, (st.entryFor D a).admits (c :: r) = true ↔ c = 42 ∨ c = 63 ∨
      (st.entryFor D a).chrmin ≤ c ∧ c ≤ (st.entryFor D a).chrmax := by
    intro c r
    simp only [Entry.admits, Bool.or_eq_true, isWild, beq_iff_eq, Bool.and_eq_true, decide_eq_true_eq]
    exact or_assoc
  obtain ⟨art, alt, ending, gram⟩ := x
  constructor
  · rintro ⟨r, h1, h2, rfl, h4, h5⟩
    simp only at h1 h2 h4 h5
    refine ⟨rfl, ha, h4, ?_, ?_⟩
    · by_cases hinf : art.Inflected
      · simp only [hinf, if_true] at h5
        simp only [WildHit.report, hinf, if_true, List.append_assoc]
        exact h1.matches h5
      · simp only [hinf, if_false] at h5
        simp only [WildHit.report, hinf, if_false]
        simpa using h1.matches h5
    · intro hinf
      simp only at hinf
      simp only [hinf, if_true] at h5
      by_cases he : alt ++ ending = []
      · by_cases hp : art.post = []
        · exact Or.inr (Or.inl hp)
        · obtain ⟨e1, e2⟩ := List.append_eq_nil_iff.1 he
          refine Or.inr (Or.inr ⟨r, h1, by simpa [e1, e2] using h5, ?_⟩)
          intro c hc
          cases r with
          | nil => simp at hc
          | cons d r =>
            simp only [List.head?_cons, Option.some.injEq] at hc
            subst hc
            rcases (hadm d r).1 h2 with h | h | h
            · exact Or.inl h
            · exact Or.inr (Or.inl h)
            · refine Or.inr (Or.inr ?_)
              intro lo hi hb
              rw [hbounds] at hb
              simp only [Option.some.injEq, Prod.mk.injEq] at hb
              rw [← hb.1, ← hb.2]; exact h
      · exact Or.inl he
  · rintro ⟨rfl, -, h4, h5, h6⟩
    simp only at h4 h5 h6
    by_cases hinf : art.Inflected
    · simp only [WildHit.report, hinf, if_true, List.append_assoc] at h5
      have hne : (∃ r, WildRest T art.stem r ∧ WildMatch r (alt ++ (ending ++ art.post)) ∧ (st.entryFor D art).admits r = true) := by
        by_cases hn : alt ++ ending ≠ [] ∨ art.post = []
        · obtain ⟨r, h1, h2⟩ := h5.rest
          refine ⟨r, h1, h2, ?_⟩
          cases r with
          | nil => rfl
          | cons c r =>
            rw [hadm]
            by_cases h42 : c = 42
            · exact Or.inl h42
            by_cases h63 : c = 63
            · exact Or.inr (Or.inl h63)
            right; right
            obtain ⟨v, hv, -⟩ := (wildMatch_same h42 h63).1 h2
            rw [← List.append_assoc] at hv
            have hnn : alt ++ ending ≠ [] := by
              rcases hn with hn | hn
              · exact hn
              · rw [hn, List.append_nil] at hv
                rw [hv]; simp
            obtain ⟨b, bs, hbs⟩ := List.exists_cons_of_ne_nil hnn
            rw [hbs] at hv
            simp only [List.cons_append, List.cons.injEq] at hv
            have := h.covers art ha _ _ hbounds alt ending gram h4 b (by rw [hbs]; rfl)
            rw [hv.1] at this
            exact this
        · rcases h6 hinf with h0 | h0 | ⟨r, h1, h2, h3⟩
          · exact absurd (Or.inl h0) hn
          · exact absurd (Or.inr h0) hn
          · have he0 : alt ++ ending = [] := by_contra fun hh => hn (Or.inl hh)
            obtain ⟨e1, e2⟩ := List.append_eq_nil_iff.1 he0
            refine ⟨r, h1, by simpa [e1, e2] using h2, ?_⟩
            cases r with
            | nil => rfl
            | cons c r =>
              rw [hadm]
              rcases h3 c rfl with h | h | h
              · exact Or.inl h
              · exact Or.inr (Or.inl h)
              · exact Or.inr (Or.inr (h _ _ hbounds))
      obtain ⟨r, h1, h2, h3⟩ := hne
      exact ⟨r, h1, h3, rfl, h4, by simpa only [hinf, if_true] using h2⟩
    · simp only [WildHit.report, hinf, if_false] at h5
      obtain ⟨r, h1, h2⟩ := WildMatch.rest (s := art.stem) (t := []) (by simpa using h5)
      refine ⟨r, h1, ?_, rfl, h4, by simpa only [hinf, if_false] using h2⟩
      rw [wildMatch_empty] at h2
      cases r with
      | nil => rfl
      | cons c r =>
        simp only [List.isEmpty_cons, Bool.false_or, isAsterisk, List.all_cons, Bool.and_eq_true, beq_iff_eq] at h2
        simp [Entry.admits, isWild, h2.2.1]

/-- The number of readings of every article is at most 512. -/
def RusDict.FewReadings (D : RusDict) : Prop :=
  ∀ a ∈ D.arts, ∀ l : List (List Byte × List Byte × FlexInfo), l.Nodup → (∀ q ∈ l, D.Reads a q.1 q.2.1 q.2.2) → l.length ≤ 512

/-- The outcome of a search: either more matches than there is room for were found for some lexeme (undefined
behaviour), or the client gets exactly the forms to be found.  When no asterisk but the last character is in the
template, lexeme ids are unique and no article has more than 512 readings, the outcome is defined, every reading is
reported once and there is one call per lexeme. -/
theorem C31_rus_exact_partial (h : RusOk A D st) (hw : RusWildOk D)
    (tail smatch : List Byte) (htail : tail ≠ []) (hbuf : smatch.length = 48)
    (client : List (Nat × List StrMatch) → Int) (str : List Byte) (hne : str ≠ []) (hlen : str.length < 48)
    (hparts : (wordParts rusTab str).length ≤ 8) :
    (∀ res, rusFindMatch (st.images D.mtab) tail smatch client str = some res →
      ∃ C R, res = (if C = [] then 0 else client C, C) ∧ D.WildOutcome (str.map rusTab.lower) C R) ∧
    (StarLast (str.map rusTab.lower) → (D.arts.map RusArticle.id).Nodup → D.FewReadings →
      ∃ C R, rusFindMatch (st.images D.mtab) tail smatch client str = some (if C = [] then 0 else client C, C) ∧
        D.WildOutcome (str.map rusTab.lower) C R ∧ R.Nodup ∧ (C.map Prod.fst).Nodup) := by
  let T := str.map rusTab.lower
  let l := D.arts.map fun a => (a.stem, st.entryFor D a)
  have himg : (st.images D.mtab).stemtree = stemImage (fileAll l) := by
    have := h.entries
    simp only [RusState.images, l]
    rw [← this]
  have hmem : ∀ k e, (k, e) ∈ l → ∃ a ∈ D.arts, k = a.stem ∧ e = st.entryFor D a := by
    intro k e hk
    obtain ⟨a, ha, h1⟩ := List.mem_map.1 hk
    simp only [Prod.mk.injEq] at h1
    exact ⟨a, ha, h1.1.symm, h1.2.symm⟩
  -- what is found for an article
  have hexH : ∀ (a : RusArticle) (r : List Byte), ∃ H : List WildHit, a ∈ D.arts →
      (∀ (σ : Type) (reg : Nat × StrMatch → σ → Option σ), Emits 48 reg a.stem
        (rusWildTarget (st.images D.mtab) (regOf reg) (st.entryFor D a).nlexid (st.entryFor D a).oclass r (st.entryFor D a).stpost a.stem.length)
        (H.map WildHit.report)) ∧
      (∀ x, x ∈ H ↔ D.HitWith a r x) ∧ (StarLast r → H.Nodup) := by
    intro a r
    by_cases ha : a ∈ D.arts
    · obtain ⟨H, hH⟩ := rusTarget_emits h hw ha r
      exact ⟨H, fun _ => hH⟩
    · exact ⟨[], fun ha' => absurd ha' ha⟩
  choose H hH using hexH
  have hcoll : ∀ a ∈ D.arts, ∀ r, wildCollect (st.images D.mtab) (st.entryFor D a) a.stem r = (H a r).map WildHit.report := by
    intro a ha r
    exact collect_emits (by have := hw.stems a ha; omega) ((hH a r ha).1 _ _)
  -- the articles in the order of the entries
  have hexA : ∀ k, ∃ AL : List RusArticle, AL.Perm (D.arts.filter fun a => a.stem = k) ∧ AL.map (st.entryFor D) = filedUnder l k := by
    intro k
    refine perm_map_lift ((filedUnder_perm l k).trans ?_)
    simp only [l, List.filter_map, List.map_map]
    exact List.Perm.refl _
  choose AL hAL using hexA
  have hALm : ∀ k a, a ∈ AL k ↔ a ∈ D.arts ∧ a.stem = k := by
    intro k a
    rw [(hAL k).1.mem_iff, List.mem_filter]; simp
  obtain ⟨L, l1, l2, l3, -⟩ := wildScan_dict (cap := 48) (reg := rusRegE) h.dict (target := rusWildTarget (st.images D.mtab) rusReg)
    (EV := fun e k r => wildCollect (st.images D.mtab) e k r)
    (by
      intro k e r hk
      obtain ⟨a, ha, rfl, rfl⟩ := hmem k e hk
      rw [hcoll a ha, rusReg_eq]
      exact (hH a r ha).1 _ rusRegE)
    (by
      rintro ⟨k, e⟩ hk
      obtain ⟨a, ha, rfl, rfl⟩ := hmem k e hk
      exact hw.stems a ha)
    (by omega) tail htail T
  let visits : List Byte × List Byte → List RusArticle := fun v => (AL v.1).filter fun a => (st.entryFor D a).admits v.2
  let R : List WildHit := L.flatMap fun v => (visits v).flatMap fun a => H a v.2
  let E := L.flatMap fun v => ((filedUnder l v.1).filter fun e => e.admits v.2).flatMap fun e => wildCollect (st.images D.mtab) e v.1 v.2
  have hER : E = R.map WildHit.report := by
    simp only [E, R, List.map_flatMap]
    refine flatMap_congr' ?_
    intro v _
    rw [← (hAL v.1).2, List.filter_map, List.flatMap_map]
    refine flatMap_congr' ?_
    intro a ha
    have ha := (hALm v.1 a).1 (List.mem_of_mem_filter ha)
    have := hcoll a ha.1 v.2
    rw [ha.2] at this
    exact this
  have hRmem : ∀ x, x ∈ R ↔ D.WildFound T x := by
    intro x
    simp only [R, visits, List.mem_flatMap, List.mem_filter]
    constructor
    · rintro ⟨⟨k, r⟩, hv, a, ⟨ha, had⟩, hx⟩
      obtain ⟨ha1, hk⟩ := (hALm k a).1 ha
      simp only at hk hx had
      subst hk
      exact ((rus_article_found h ha1 T x).1 ⟨r, ((l2 _ _).1 hv).2, had, ((hH a r ha1).2.1 x).1 hx⟩).2
    · intro hf
      have ha := hf.art
      obtain ⟨r, h1, h2, h3⟩ := (rus_article_found h ha T x).2 ⟨rfl, hf⟩
      exact ⟨(x.art.stem, r), (l2 _ _).2 ⟨⟨_, List.mem_map.2 ⟨_, ha, rfl⟩⟩, h1⟩, x.art, ⟨(hALm _ _).2 ⟨ha, rfl⟩, h2⟩, ((hH _ r ha).2.1 x).2 h3⟩
  have hid : ∀ e ∈ E, e.1 ≠ 0 := by
    intro e he
    rw [hER] at he
    obtain ⟨x, hx, rfl⟩ := List.mem_map.1 he
    exact hw.ids _ ((hRmem x).1 hx).art
  have htext : ∀ e ∈ E, e.2.text.length < 48 := by
    intro e he
    rw [hER] at he
    obtain ⟨x, hx, rfl⟩ := List.mem_map.1 he
    have hf := (hRmem x).1 hx
    have hst := hw.stems _ hf.art
    by_cases hinf : x.art.Inflected
    · have hr := hf.reads
      simp only [RusDict.Reads, hinf, if_true, RusDict.Inflects] at hr
      have hx : x.alt ∈ D.altsOf x.art := by
        rw [RusDict.altsOf]
        by_cases hm : x.art.mtoffs = 0
        · have := hr.2.2
          rw [if_pos hm] at this ⊢
          simp [this]
        · have := hr.2.2
          rw [if_neg hm] at this ⊢
          rcases this with h0 | h0
          · exact List.mem_map.2 ⟨_, h0, rfl⟩
          · exact List.mem_map.2 ⟨_, h0.1, rfl⟩
      have := hw.short _ hf.art hinf _ hx _ _ _ hr.1
      simp only [WildHit.report, hinf, if_true, List.length_append]
      omega
    · simpa only [WildHit.report, hinf, if_false] using hst
  obtain ⟨reg1, reg2⟩ := rusReg_all hid
  obtain ⟨sc, c1, -⟩ := capGet_summary rusTab rusTab_ok formLength str hne hlen (by decide) hparts
  have hrun := l1 smatch {} hbuf (List.nil_prefix)
  have hfind : ∀ s, E.foldlM (fun s e => rusRegE e s) ({} : MatchSt) = some s →
      rusFindMatch (st.images D.mtab) tail smatch client str = some (if s.all = [] then 0 else client s.all, s.all) ∧
      D.WildOutcome T s.all R := by
    intro s hs
    have hinv := reg1 s hs
    have hrun := hrun
    rw [show (L.flatMap fun v => ((filedUnder l v.1).filter fun e => e.admits v.2).flatMap fun e =>
      (fun e k r => wildCollect (st.images D.mtab) e k r) e v.1 v.2) = E from rfl, hs] at hrun
    obtain ⟨buf', r1, -, -⟩ := hrun
    constructor
    · have h0 : ¬ str.length = 0 := by simpa using hne
      have h1 : ¬ str.length ≥ formLength := by simp only [formLength]; omega
      simp only [rusFindMatch, h0, h1, if_false, c1, bind, Option.bind_some, himg]
      rw [r1]
      simp only [Option.bind_some, pure]
      rw [rus_finish_eq client hinv]
    · exact ⟨hRmem, by rw [← hER]; exact hinv.flat, hinv.nonempty, hinv.change⟩
  refine ⟨?_, ?_⟩
  · intro res hres
    cases hE : E.foldlM (fun s e => rusRegE e s) ({} : MatchSt) with
    | none =>
      exfalso
      have hrun := hrun
      rw [show (L.flatMap fun v => ((filedUnder l v.1).filter fun e => e.admits v.2).flatMap fun e =>
        (fun e k r => wildCollect (st.images D.mtab) e k r) e v.1 v.2) = E from rfl, hE] at hrun
      have h0 : ¬ str.length = 0 := by simpa using hne
      have h1 : ¬ str.length ≥ formLength := by simp only [formLength]; omega
      simp only [rusFindMatch, h0, h1, if_false, c1, bind, Option.bind_some, himg] at hres
      have hrun : wildScan (rusWildTarget (st.images D.mtab) rusReg) (stemImage (fileAll l) ++ tail) (str.map rusTab.lower) (smatch, {}) = none := hrun
      rw [hrun] at hres
      simp at hres
    | some s =>
      obtain ⟨f1, f2⟩ := hfind s hE
      rw [hres] at f1
      simp only [Option.some.injEq] at f1
      exact ⟨s.all, R, f1, f2⟩
  · intro hstar huniq hfew
    have hpw := l3 hstar
    have harts : D.arts.Nodup := List.Nodup.of_map _ huniq
    have hvn : ∀ v, (visits v).Nodup := fun v => (((hAL v.1).1.nodup_iff).2 (harts.filter _)).filter _
    have hvm : ∀ v, ∀ a ∈ visits v, a ∈ D.arts ∧ a.stem = v.1 := fun v a ha => (hALm v.1 a).1 (List.mem_of_mem_filter ha)
    have hLn : (L.map Prod.fst).Nodup := by rw [List.Nodup, List.pairwise_map]; exact hpw
    have hRn : R.Nodup := by
      refine nodup_flatMap_key (key := Prod.fst) (k2 := fun x => x.art.stem) hLn ?_ ?_
      · intro v hv x hx
        obtain ⟨a, ha, hx⟩ := List.mem_flatMap.1 hx
        obtain ⟨ha1, ha2⟩ := hvm v a ha
        rw [← ha2, (((hH a v.2 ha1).2.1 x).1 hx).1]
      · intro v hv
        refine nodup_flatMap_key (key := id) (k2 := WildHit.art) (by simpa using hvn v) ?_ ?_
        · intro a ha x hx
          exact (((hH a v.2 (hvm v a ha).1).2.1 x).1 hx).1
        · intro a ha
          exact (hH a v.2 (hvm v a ha).1).2.2 (((l2 v.1 v.2).1 hv).2.starLast hstar)
    obtain ⟨s, hs⟩ := reg2 htext (by
      intro id
      rw [hER, List.filter_map, List.length_map]
      set F := R.filter ((fun e : Nat × StrMatch => decide (e.1 = id)) ∘ WildHit.report) with hF
      have hFm : ∀ x ∈ F, D.WildFound T x ∧ x.art.id = id := by
        intro x hx
        obtain ⟨h1, h2⟩ := List.mem_filter.1 hx
        exact ⟨(hRmem x).1 h1, by simpa [WildHit.report] using h2⟩
      by_cases hF0 : F = []
      · rw [hF0]; simp
      · obtain ⟨y, ys, hy⟩ := List.exists_cons_of_ne_nil hF0
        have hyF : y ∈ F := by rw [hy]; simp
        have hart : ∀ x ∈ F, x.art = y.art := by
          intro x hx
          exact List.inj_on_of_nodup_map huniq (hFm x hx).1.art (hFm y hyF).1.art ((hFm x hx).2.trans (hFm y hyF).2.symm)
        have hn : (F.map fun x => (x.alt, x.ending, x.gram)).Nodup := by
          refine List.Nodup.map_on ?_ (hRn.filter _)
          intro x hx z hz he
          simp only [Prod.mk.injEq] at he
          have e1 := (hart x hx).trans (hart z hz).symm
          obtain ⟨a1, b1, c1, d1⟩ := x
          obtain ⟨a2, b2, c2, d2⟩ := z
          simp only at e1 he
          simp [e1, he]
        have := hfew y.art (hFm y hyF).1.art _ hn (by
          intro q hq
          obtain ⟨x, hx, rfl⟩ := List.mem_map.1 hq
          have := (hFm x hx).1.reads
          rw [hart x hx] at this
          exact this)
        rwa [List.length_map] at this)
    obtain ⟨f1, f2⟩ := hfind s hs
    refine ⟨s.all, R, f1, f2, hRn, ?_⟩
    rw [(reg1 s hs).ids]
    let B : List ((List Byte × List Byte) × RusArticle) := L.flatMap fun v => (visits v).map fun a => (v, a)
    have hEB : E.map Prod.fst = B.flatMap fun b => (H b.2 b.1.2).map fun x => x.art.id := by
      rw [hER]
      simp only [R, B, List.map_flatMap, List.flatMap_assoc, List.flatMap_map, List.map_map]
      rfl
    rw [hEB]
    have hBm : ∀ b ∈ B, b.1 ∈ L ∧ b.2 ∈ visits b.1 := by
      rintro ⟨v, a⟩ hb
      simp only [B, List.mem_flatMap, List.mem_map, Prod.mk.injEq] at hb
      obtain ⟨v', hv', a', ha', rfl, rfl⟩ := hb
      exact ⟨hv', ha'⟩
    refine visitIds_nodup (key := fun b => b.2.id) ?_ ?_
    · intro b hb i hi
      obtain ⟨x, hx, rfl⟩ := List.mem_map.1 hi
      rw [(((hH b.2 b.1.2 (hvm _ _ (hBm b hb).2).1).2.1 x).1 hx).1]
    · rw [show (B.map fun b => b.2.id) = (L.flatMap visits).map RusArticle.id by
        simp only [B, List.map_flatMap, List.map_map]; rfl]
      refine List.Nodup.map_on ?_ ?_
      · intro a ha a' ha' he
        obtain ⟨v, -, hv⟩ := List.mem_flatMap.1 ha
        obtain ⟨v', -, hv'⟩ := List.mem_flatMap.1 ha'
        exact List.inj_on_of_nodup_map huniq (hvm v a hv).1 (hvm v' a' hv').1 he
      · refine nodup_flatMap_key (key := Prod.fst) (k2 := RusArticle.stem) hLn (fun v _ a ha => (hvm v a ha).2) (fun v _ => hvn v)

/-- C30: every reported form matches the template (in small letters) and is a form, with that number, of an article
with that lexeme id (an uninflected word is reported without its suffix). -/
theorem C30_rus_sound (h : RusOk A D st) (hw : RusWildOk D)
    (tail smatch : List Byte) (htail : tail ≠ []) (hbuf : smatch.length = 48)
    (client : List (Nat × List StrMatch) → Int) (str : List Byte) (hne : str ≠ []) (hlen : str.length < 48)
    (hparts : (wordParts rusTab str).length ≤ 8) {n : Int} {C : List (Nat × List StrMatch)}
    (hres : rusFindMatch (st.images D.mtab) tail smatch client str = some (n, C)) :
    ∀ c ∈ C, ∀ m ∈ c.2, WildMatch (str.map rusTab.lower) m.text ∧
      ∃ a ∈ D.arts, a.id = c.1 ∧
        ((a.Inflected ∧ D.HasForm a m.text ∧ ∃ x e g, D.Reads a x e g ∧ m.text = a.stem ++ x ++ e ++ a.post ∧
            m.id = mapWordInfo a.wdinfo g.gramm g.flags) ∨
         (¬ a.Inflected ∧ m.id = 255 ∧ m.text = a.stem)) := by
  obtain ⟨C', R, h1, h2⟩ := (C31_rus_exact_partial h hw tail smatch htail hbuf client str hne hlen hparts).1 _ hres
  simp only [Prod.mk.injEq] at h1
  intro c hc m hm
  have hmem : (c.1, m) ∈ R.map WildHit.report := by
    rw [← h2.reported, ← h1.2]
    exact List.mem_flatMap.2 ⟨c, hc, List.mem_map.2 ⟨m, hm, rfl⟩⟩
  obtain ⟨y, hy, hrep⟩ := List.mem_map.1 hmem
  have hf := (h2.found y).1 hy
  have ht := hf.fits
  rw [hrep] at ht
  refine ⟨ht, y.art, hf.art, (congrArg Prod.fst hrep), ?_⟩
  have hrep := congrArg Prod.snd hrep
  by_cases hi : y.art.Inflected
  · simp only [WildHit.report, hi, if_true] at hrep
    subst hrep
    exact Or.inl ⟨hi, ⟨_, _, _, hf.reads, rfl⟩, _, _, _, hf.reads, rfl, rfl⟩
  · simp only [WildHit.report, hi, if_false] at hrep
    subst hrep
    exact Or.inr ⟨hi, rfl, rfl⟩

/-- C31, for the forms the search does not lose: when the search is defined, every form that matches the template is
reported under its lexeme id with its number, if it belongs to an article without a suffix or to an inflected article
and either something stands between stem and suffix or the suffix begins with a character between the first-letter
bounds of the article. -/
theorem C31_rus_complete_partial (h : RusOk A D st) (hw : RusWildOk D)
    (tail smatch : List Byte) (htail : tail ≠ []) (hbuf : smatch.length = 48)
    (client : List (Nat × List StrMatch) → Int) (str : List Byte) (hne : str ≠ []) (hlen : str.length < 48)
    (hparts : (wordParts rusTab str).length ≤ 8) {n : Int} {C : List (Nat × List StrMatch)}
    (hres : rusFindMatch (st.images D.mtab) tail smatch client str = some (n, C)) :
    ∀ a ∈ D.arts, ∀ x e g, D.Reads a x e g → WildMatch (str.map rusTab.lower) (a.stem ++ x ++ e ++ a.post) →
      (a.post = [] ∨ a.Inflected ∧ (x ++ e ≠ [] ∨
        ∀ lo hi, rusBounds D.ftab D.mtab a = some (lo, hi) → ∀ b, a.post.head? = some b → lo ≤ b ∧ b ≤ hi)) →
      ∃ c ∈ C, c.1 = a.id ∧ ⟨a.stem ++ x ++ e ++ a.post, if a.Inflected then mapWordInfo a.wdinfo g.gramm g.flags else 255⟩ ∈ c.2 := by
  obtain ⟨C', R, h1, h2⟩ := (C31_rus_exact_partial h hw tail smatch htail hbuf client str hne hlen hparts).1 _ hres
  simp only [Prod.mk.injEq] at h1
  intro a ha x e g hr hm hor
  have hrep : WildHit.report ⟨a, x, e, g⟩ =
      (a.id, ⟨a.stem ++ x ++ e ++ a.post, if a.Inflected then mapWordInfo a.wdinfo g.gramm g.flags else 255⟩) := by
    by_cases hi : a.Inflected
    · simp only [WildHit.report, hi, if_true]
    · have hr := hr
      simp only [RusDict.Reads, hi, if_false] at hr
      have hp : a.post = [] := by
        rcases hor with h0 | h0
        · exact h0
        · exact absurd h0.1 hi
      simp [WildHit.report, hi, hr.1, hr.2.1, hp]
  have hf : D.WildFound (str.map rusTab.lower) ⟨a, x, e, g⟩ := by
    refine ⟨ha, hr, ?_, ?_⟩
    · rw [hrep]; exact hm
    · intro _
      rcases hor with h0 | ⟨-, h0 | h0⟩
      · exact Or.inr (Or.inl h0)
      · exact Or.inl h0
      · by_cases hxe : x ++ e = []
        · obtain ⟨e1, e2⟩ := List.append_eq_nil_iff.1 hxe
          rw [e1, e2, List.append_nil, List.append_nil] at hm
          obtain ⟨r, r1, r2⟩ := hm.rest
          refine Or.inr (Or.inr ⟨r, r1, r2, ?_⟩)
          intro c hc
          by_cases h42 : c = 42
          · exact Or.inl h42
          by_cases h63 : c = 63
          · exact Or.inr (Or.inl h63)
          refine Or.inr (Or.inr fun lo hi hb => h0 lo hi hb c ?_)
          cases r with
          | nil => simp at hc
          | cons d r =>
            simp only [List.head?_cons, Option.some.injEq] at hc
            subst hc
            obtain ⟨v, hv, -⟩ := (wildMatch_same h42 h63).1 r2
            rw [hv]; rfl
        · exact Or.inl hxe
  have hmem := List.mem_map.2 ⟨_, (h2.found _).2 hf, hrep⟩
  rw [← h2.reported, ← h1.2] at hmem
  obtain ⟨c, hc, hm⟩ := List.mem_flatMap.1 hmem
  obtain ⟨m, hm, heq⟩ := List.mem_map.1 hm
  simp only [Prod.mk.injEq] at heq
  exact ⟨c, hc, heq.1, heq.2 ▸ hm⟩

/-! ### The limits are met, and what lies outside -/

/-- Every ending of the sample is in this list. -/
theorem rusSample_endings {tf : Nat} (htf : tf ∈ [1, 31]) {e : List Byte} {g fl : Nat} (he : Ending rusSampleFlex tf e g fl) :
    (e, (⟨g, fl⟩ : FlexInfo)) ∈ (allEndings rusSampleFlex 3 1).getD [] ++ (allEndings rusSampleFlex 3 31).getD [] := by
  simp only [List.mem_cons, List.not_mem_nil, or_false] at htf
  rw [List.mem_append]
  rcases htf with rfl | rfl
  · left
    have h : (allEndings rusSampleFlex 3 1).isSome = true := by decide +kernel
    obtain ⟨l, hl⟩ := Option.isSome_iff_exists.1 h
    rw [hl]
    exact mem_allEndings he hl
  · right
    have h : (allEndings rusSampleFlex 3 31).isSome = true := by decide +kernel
    obtain ⟨l, hl⟩ := Option.isSome_iff_exists.1 h
    rw [hl]
    exact mem_allEndings he hl

theorem rusSample_tables : ∀ a ∈ rusSample.arts, a.Inflected → a.tfoffs ∈ [1, 31] := by decide

theorem rusSample_alts : ∀ a ∈ rusSample.arts, ∀ x ∈ rusSample.altsOf a, x ∈ [[], [238, 237], [237]] := by decide

theorem rusSample_wild : RusWildOk rusSample := by
  refine ⟨?_, ?_, by decide, by decide, ?_, ?_, by decide⟩
  · intro a ha hi e g fl he
    have h : ∀ p ∈ (allEndings rusSampleFlex 3 1).getD [] ++ (allEndings rusSampleFlex 3 31).getD [], ∀ c ∈ p.1, c ≠ 42 := by
      decide +kernel
    exact h _ (rusSample_endings (rusSample_tables a ha hi) he)
  · intro a ha _ x hx
    have h : ∀ x ∈ [[], [238, 237], [237]], ∀ c ∈ x, c ≠ 42 ∧ c ≠ 63 := by decide
    exact h x (rusSample_alts a ha x hx)
  · intro a ha _ x hx
    have h : ∀ a ∈ rusSample.arts, ∀ x ∈ [[], [238, 237], [237]], a.stem.length + x.length + a.post.length < 48 := by decide
    exact h a ha x (rusSample_alts a ha x hx)
  · intro a ha hi x hx e g fl he
    have h : ∀ p ∈ (allEndings rusSampleFlex 3 1).getD [] ++ (allEndings rusSampleFlex 3 31).getD [],
        ∀ a ∈ rusSample.arts, ∀ x ∈ [[], [238, 237], [237]], a.stem.length + x.length + p.1.length + a.post.length < 48 := by
      decide +kernel
    exact h _ (rusSample_endings (rusSample_tables a ha hi) he) a ha x (rusSample_alts a ha x hx)

theorem rusSample_few : rusSample.FewReadings := by
  intro a ha l hn hl
  let all := ([[], [238, 237], [237]] : List (List Byte)).flatMap fun x =>
    ((allEndings rusSampleFlex 3 1).getD [] ++ (allEndings rusSampleFlex 3 31).getD [] ++
      rusSample.arts.map fun (a : RusArticle) => (([] : List Byte), (⟨a.tfoffs, 0⟩ : FlexInfo))).map fun p => (x, p.1, p.2)
  have hsub : l ⊆ all := by
    intro q hq
    have hr := hl q hq
    simp only [all, List.mem_flatMap, List.mem_map]
    by_cases hi : a.Inflected
    · simp only [RusDict.Reads, hi, if_true, RusDict.Inflects] at hr
      refine ⟨q.1, ?_, (q.2.1, q.2.2), ?_, rfl⟩
      · have h1 : ∀ a ∈ rusSample.arts, a.mtoffs ≠ 0 → a.mtoffs = 1 := by decide
        by_cases hm : a.mtoffs = 0
        · have := hr.2.2
          rw [if_pos hm] at this
          simp [this]
        · have := hr.2.2
          rw [if_neg hm] at this
          have h2 : ∀ p ∈ rusSampleAlts, p.1 ∈ ([[], [238, 237], [237]] : List (List Byte)) := by decide
          rcases this with h0 | h0
          · exact h2 _ h0
          · exact h2 _ h0.1
      · exact List.mem_append_left _ (rusSample_endings (rusSample_tables a ha hi) hr.1)
    · simp only [RusDict.Reads, hi, if_false] at hr
      refine ⟨[], by simp, ([], ⟨a.tfoffs, 0⟩), List.mem_append_right _ (List.mem_map.2 ⟨a, ha, rfl⟩), ?_⟩
      obtain ⟨q1, q2, q3⟩ := q
      simp only at hr
      rw [hr.1, hr.2.1, hr.2.2]
  have hlen : all.length ≤ 512 := by decide +kernel
  exact Nat.le_trans (List.Nodup.subperm hn hsub).length_le hlen

/-- "С*а" finds "сна" (genitive) only: "сон-то" never ends in "а". -/
example : rusFindMatch (rusSampleState.images rusSample.mtab) [0] (List.replicate 48 0) (fun _ => 7) [209, 42, 224]
    = some (7, [(300, [⟨[241, 237, 224], 1⟩])]) := by decide +kernel

/-- The sample meets all the hypotheses for the template "с*". -/
example : ∃ C R, rusFindMatch (rusSampleState.images rusSample.mtab) [0] (List.replicate 48 0) (fun _ => 7) [241, 42]
      = some (if C = [] then 0 else 7, C) ∧
    rusSample.WildOutcome ([241, 42].map rusTab.lower) C R ∧ R.Nodup ∧ (C.map Prod.fst).Nodup :=
  (C31_rus_exact_partial rusSample_ok rusSample_wild [0] (List.replicate 48 0) (by decide) (by decide) (fun _ => 7) [241, 42]
    (by decide) (by decide) (by decide +kernel)).2
    (by refine ⟨by decide, by decide, trivial⟩) (by decide) rusSample_few

/-- Several asterisks: the same forms are reported again, in the same call and in further calls ("**м"). -/
theorem C31_rus_reported_twice :
    (rusFindMatch (rusSampleState.images rusSample.mtab) [0] (List.replicate 48 0) (fun _ => 0) [42, 42, 236]).map
        (fun r => decide (r.2.map Prod.fst).Nodup) = some false ∧
    (rusFindMatch (rusSampleState.images rusSample.mtab) [0] (List.replicate 48 0) (fun _ => 0) [42, 42, 236]).map
        (fun r => (r.2.filter fun c => c.1 = 9).map Prod.snd) = some [[⟨[242, 224, 236], 255⟩], [⟨[242, 224, 236], 255⟩, ⟨[242, 224, 236], 255⟩]] := by
  constructor <;> decide +kernel

/-- The template "и" with six asterisks overflows the room for 512 matches of one lexeme: undefined behaviour, in a dictionary
within all the limits.  C31 therefore fails for templates with several asterisks. -/
theorem C31_rus_overflow :
    rusFindMatch (rusSampleState.images rusSample.mtab) [0] (List.replicate 48 0) (fun _ => 0) [232, 42, 42, 42, 42, 42, 42] = none ∧
    RusOk rusSampleLetters rusSample rusSampleState ∧ RusWildOk rusSample ∧ rusSample.FewReadings :=
  ⟨by decide +kernel, rusSample_ok, rusSample_wild, rusSample_few⟩

/-- The article "там-то": an uninflected word with a suffix. -/
def tamTo : RusDict := { rusSample with arts := [⟨[242, 224, 236], 54, 0, 0, [45, 242, 238], 9⟩, ⟨[232, 226, 224, 237], 38, 1, 0, [45, 242, 238], 7⟩] }

theorem tamTo_builds : (rusBuild tamTo.ftab tamTo.mtab tamTo.arts).isSome = true := by decide +kernel

/-- What the compiler makes of it. -/
def tamToState : RusState := (rusBuild tamTo.ftab tamTo.mtab tamTo.arts).get tamTo_builds

/-- An uninflected article with a suffix: a search reports the stem, which is not a form of it, and does not find the
form; CheckWord does it the other way round. -/
theorem C31_rus_plain_suffix :
    rusFindMatch (tamToState.images tamTo.mtab) [0] (List.replicate 48 0) (fun _ => 1) [242, 63, 63]
      = some (1, [(9, [⟨[242, 224, 236], 255⟩])]) ∧
    rusFindMatch (tamToState.images tamTo.mtab) [0] (List.replicate 48 0) (fun _ => 1) [242, 224, 236, 45, 242, 238] = some (0, []) ∧
    rusCheck (tamToState.images tamTo.mtab) [0] [242, 224, 236] 0 = some 0 ∧
    rusCheck (tamToState.images tamTo.mtab) [0] [242, 224, 236, 45, 242, 238] 0 = some 1 := by
  refine ⟨?_, ?_, ?_, ?_⟩ <;> decide +kernel

/-- "иван-то" in a class whose only ending is empty. -/
def ivanTo : RusDict := { rusSample with ftab := [0, 0, 1, 3, 0, 0, 0], arts := [⟨[232, 226, 224, 237], 38, 1, 0, [45, 242, 238], 7⟩] }

theorem ivanTo_builds : (rusBuild ivanTo.ftab ivanTo.mtab ivanTo.arts).isSome = true := by decide +kernel

/-- What the compiler makes of it. -/
def ivanToState : RusState := (rusBuild ivanTo.ftab ivanTo.mtab ivanTo.arts).get ivanTo_builds

theorem ivanTo_ok : RusOk rusSampleLetters ivanTo ivanToState where
  built := by simp [ivanToState]
  alpha := by decide
  letters := by decide
  stems := by decide
  short := by decide
  ids := by decide
  posts := by decide
  text := by decide
  words := by decide
  prepos := by decide
  plainw := by decide
  refs := by decide
  tables := by
    intro a ha hinf
    have : ∀ a ∈ ivanTo.arts, a.tfoffs = 1 := by decide
    rw [this a ha]
    exact ⟨rusSampleEndLetters, flexOk_of (d := 3) (l := (allEndings ivanTo.ftab 3 1).get (by decide +kernel)) (by simp)
        (by decide) (by decide) (by decide) (by decide +kernel) (by decide +kernel)⟩
  long := by
    intro a ha hinf e g fl he
    have : ∀ a ∈ ivanTo.arts, a.tfoffs = 1 := by decide
    rw [this a ha] at he
    have h : ∀ p ∈ (allEndings ivanTo.ftab 3 1).get (by decide +kernel), p.1.length ≤ 64 := by decide +kernel
    exact h _ (mem_allEndings he (d := 3) (by simp))
  mixes := by
    intro a ha hmt
    have : ∀ a ∈ ivanTo.arts, a.mtoffs = 0 := by decide
    exact absurd (this a ha) hmt
  covers := by
    intro a ha
    have h1 : ∀ a ∈ ivanTo.arts, a.tfoffs = 1 ∧ a.pos < 48 ∧ a.mtoffs = 0 := by decide
    refine C45_bounds_cover_partial ivanTo a (fun h => (h1 a ha).2.1) (fun h => ?_) (fun _ h => absurd (h1 a ha).2.2 h)
    rw [(h1 a ha).1]
    exact saneTable_of [1] 1 (by simp) (by decide +kernel) (by decide +kernel) (by decide +kernel)
  count := by decide
  classes := by decide +kernel
  plain := by decide +kernel
  size := by decide +kernel

/-- C31 fails: when the only ending is empty, the form "иван-то" matches the template "иван-то" and is accepted by
CheckWord, but is not found; the template "иван*" does find it. -/
theorem C31_rus_counterexample :
    RusOk rusSampleLetters ivanTo ivanToState ∧
    rusFindMatch (ivanToState.images ivanTo.mtab) [0] (List.replicate 48 0) (fun _ => 1) [232, 226, 224, 237, 45, 242, 238] = some (0, []) ∧
    rusCheck (ivanToState.images ivanTo.mtab) [0] [232, 226, 224, 237, 45, 242, 238] 2 = some 1 ∧
    rusFindMatch (ivanToState.images ivanTo.mtab) [0] (List.replicate 48 0) (fun _ => 1) [232, 226, 224, 237, 42]
      = some (1, [(7, [⟨[232, 226, 224, 237, 45, 242, 238], 0⟩])]) := by
  refine ⟨ivanTo_ok, ?_, ?_, ?_⟩ <;> decide +kernel

/-- The extra condition of `C31_rus_complete_partial` is met by an ordinary class with an empty ending: in the sample
table "иван-то" is found by the template "иван-то". -/
example : rusBounds tamTo.ftab tamTo.mtab ⟨[232, 226, 224, 237], 38, 1, 0, [45, 242, 238], 7⟩ = some (0, 251) ∧
    rusFindMatch (tamToState.images tamTo.mtab) [0] (List.replicate 48 0) (fun _ => 1) [232, 226, 224, 237, 45, 242, 238]
      = some (1, [(7, [⟨[232, 226, 224, 237, 45, 242, 238], 0⟩, ⟨[232, 226, 224, 237, 45, 242, 238], 3⟩])]) := by
  constructor <;> decide +kernel

/-- With the lexeme id 0 the search writes through an uninitialized pointer; the scan reads the byte behind the image. -/
theorem C31_rus_undefined :
    ((rusBuild rusSample.ftab rusSample.mtab [⟨[242, 224, 236], 54, 0, 0, [], 0⟩]).map fun st =>
      rusFindMatch (st.images rusSample.mtab) [0] (List.replicate 48 0) (fun _ => 1) [242, 42]) = some none ∧
    rusFindMatch (rusSampleState.images rusSample.mtab) [] (List.replicate 48 0) (fun _ => 1) [63, 42] = none ∧
    (rusFindMatch (rusSampleState.images rusSample.mtab) [0] (List.replicate 48 0) (fun _ => 1) [63, 42]).isSome := by
  refine ⟨?_, ?_, ?_⟩ <;> decide +kernel

/-- A template of 48 or more bytes is refused, an empty one finds nothing. -/
theorem C30_rus_argument (im : RusImages) (tail smatch : List Byte) (client : List (Nat × List StrMatch) → Int) (str : List Byte) :
    (str = [] → rusFindMatch im tail smatch client str = some (0, [])) ∧
    (48 ≤ str.length → rusFindMatch im tail smatch client str = some (-4, [])) := by
  constructor
  · rintro rfl; rfl
  · intro h
    have h0 : ¬ str.length = 0 := by omega
    have h1 : str.length ≥ formLength := h
    simp only [rusFindMatch, h0, h1, if_false, if_true]
    rfl

end Libmorph
