import Verif.Lemmas.RusLoad
import Verif.Lemmas.Parts
/-
The word scan of the Russian analyser, in terms of readings.
-/
namespace Libmorph
variable {A : List Byte} {D : RusDict} {st : RusState}

theorem RusOk.dict (h : RusOk A D st) : DictOk A (D.arts.map fun a => (a.stem, st.entryFor D a)) where
  alpha := h.alpha
  letters := h.letters
  stems := by
    intro p hp
    obtain ⟨a, ha, rfl⟩ := List.mem_map.1 hp
    exact h.stems a ha
  short := by
    intro p hp
    obtain ⟨a, ha, rfl⟩ := List.mem_map.1 hp
    exact h.short a ha
  ids := by
    intro p hp
    obtain ⟨a, ha, rfl⟩ := List.mem_map.1 hp
    exact h.ids a ha
  classes := by
    intro p hp
    obtain ⟨a, ha, rfl⟩ := List.mem_map.1 hp
    exact (rus_class_at h ha).1
  posts := by
    intro p hp
    obtain ⟨a, ha, rfl⟩ := List.mem_map.1 hp
    exact h.posts a ha
  count := by rw [List.length_map]; exact h.count
  size := by rw [← h.entries]; exact h.size

theorem RusOk.safe (h : RusOk A D st) {w : List Byte} (hs : D.SuffixSafe w) :
    ∀ k rest, k ++ rest = w → Safe (filedUnder (D.arts.map fun a => (a.stem, st.entryFor D a)) k) rest := by
  rintro k rest rfl
  refine (filedUnder_sorted _ k).imp_of_mem ?_
  intro e0 e h0 h1 hle hp hsuf hne b hb
  rw [mem_filedUnder, List.mem_map] at h0 h1
  obtain ⟨a0, ha0, e0h⟩ := h0
  obtain ⟨a, ha, eh⟩ := h1
  simp only [Prod.mk.injEq] at e0h eh
  obtain ⟨hk0, rfl⟩ := e0h
  obtain ⟨hk, rfl⟩ := eh
  have hp : a.post = rest := hp
  subst hp
  exact hs a ha (by rw [hk]) b hb a0 ha0 (by rw [hk, hk0]) hsuf hne _ _ _ _ (h.resolved ha).2.1 (h.resolved ha0).2.1 hle

theorem sum_countP_le {α β : Type} [BEq α] [LawfulBEq α] (V : List α) (f : α → List β) (P : β → Bool) (v : α)
    (h1 : ∀ p ∈ V, p ≠ v → (f p).countP P = 0) (h2 : (f v).countP P ≤ 1) : (V.flatMap f).countP P ≤ V.count v := by
  induction V with
  | nil => simp
  | cons p V ih =>
    have ih := ih fun q hq => h1 q (by simp [hq])
    rw [List.flatMap_cons, List.countP_append, List.count_cons]
    by_cases hp : p = v
    · subst hp; simp; omega
    · have := h1 p (by simp) hp
      have hb : (p == v) = false := by simpa using hp
      rw [hb]; simp; omega

theorem sum_countP_eq {α β : Type} [BEq α] [LawfulBEq α] (V : List α) (f : α → List β) (P : β → Bool) (v : α)
    (h1 : ∀ p ∈ V, p ≠ v → (f p).countP P = 0) (h2 : (f v).countP P = 1) : (V.flatMap f).countP P = V.count v := by
  induction V with
  | nil => simp
  | cons p V ih =>
    have ih := ih fun q hq => h1 q (by simp [hq])
    rw [List.flatMap_cons, List.countP_append, List.count_cons]
    by_cases hp : p = v
    · subst hp; simp; omega
    · have := h1 p (by simp) hp
      have hb : (p == v) = false := by simpa using hp
      rw [hb]; simp; omega

theorem countP_le_one {β γ : Type} [DecidableEq γ] (l : List β) (f : β → γ) (hn : (l.map f).Nodup) (P : β → Bool) (x : γ)
    (hP : ∀ r ∈ l, P r = true → f r = x) : l.countP P ≤ 1 := by
  have h1 : l.countP P ≤ l.countP (fun r => f r == x) := by
    apply List.countP_mono_left
    intro r hr hp
    simpa using hP r hr hp
  have h2 : l.countP (fun r => f r == x) = (l.map f).count x := by
    rw [List.count, List.countP_map]; rfl
  have h3 := List.nodup_iff_count_le_one.1 hn x
  omega

/-- The whole scan of a word: the collector receives its readings; these depend neither on capitals nor
on settings. -/
theorem rusScan_readings (h : RusOk A D st) (w : List Byte) (hw : w.length < 48) :
    ∃ H : List RusReading, (∀ ok, D.Readings ok w (H.filter fun r => ok r.art.demand)) ∧
      ∀ (junk : List Byte) (scheme dwsets : Nat), scheme >>> 16 = w.length →
      ∀ {σ ρ : Type} (target : RusTarget σ ρ) (s : σ),
        rusScan (st.images D.mtab) w junk scheme dwsets target s
          = runList (fun r => target r.art.id (st.heardInfo r.art)
              ⟨r.alt ++ r.ending ++ (r.art.post ++ 0 :: junk), (r.alt ++ r.ending).length⟩ r.art.post (r.grams.map rawGram))
            (H.filter fun r => decide (dwsets &&& 2 ≠ 0) || isGood (scheme % 65536) r.art.demand) s := by
  have hm : maxLevels = 64 := rfl
  obtain ⟨V, hV, hrun⟩ := scan_parts h.dict w (by omega)
  have hpart : ∀ p : RusArticle × List Byte, ∃ hs : List RusReading, p ∈ V → PartReadings D p.1 p.2 hs ∧
      ∀ (scheme dwsets : Nat) {σ ρ : Type} (target : RusTarget σ ρ) (junk suffix : List Byte) (id : Nat) (s : σ),
        rusMatch (st.images D.mtab) scheme dwsets target id (st.entryFor D p.1).oclass ⟨p.2 ++ junk, p.2.length⟩ suffix s
          = if (decide (dwsets &&& 2 ≠ 0) || isGood scheme p.1.demand) = true then
              runList (fun r => target id (st.heardInfo p.1) ⟨p.2 ++ junk, p.2.length⟩ suffix (r.grams.map rawGram)) hs s
            else some (none, s) := by
    intro p
    by_cases hp : p ∈ V
    · obtain ⟨h1, h2⟩ := hV.form p hp
      have hlen : p.2.length ≤ w.length := by
        rw [h2]; simp only [List.length_append]; omega
      obtain ⟨hs, k1, k2⟩ := rusMatch_article h h1 p.2 (by omega)
      exact ⟨hs, fun _ => ⟨k1, k2⟩⟩
    · exact ⟨[], fun hq => absurd hq hp⟩
  choose hsf hsf1 using hpart
  have hgood : ∀ r ∈ V.flatMap hsf, ∃ p ∈ V, r ∈ hsf p ∧ r.art = p.1 ∧ r.alt ++ r.ending = p.2 ∧
      (∀ g, g ∈ r.grams ↔ D.Reads p.1 r.alt r.ending g) ∧ r.grams.Nodup ∧ r.grams ≠ [] := by
    intro r hr
    obtain ⟨p, hp, hr⟩ := List.mem_flatMap.1 hr
    exact ⟨p, hp, hr, (hsf1 p hp).1.good r hr⟩
  refine ⟨V.flatMap hsf, ?_, ?_⟩
  · intro ok
    have hzero : ∀ a x e, ∀ p ∈ V, p ≠ (a, x ++ e) →
        (hsf p).countP (fun r => decide (r.art = a ∧ r.alt = x ∧ r.ending = e) && ok r.art.demand) = 0 := by
      intro a x e p hp hne
      rw [List.countP_eq_zero]
      intro r hr hc
      simp only [Bool.and_eq_true, decide_eq_true_eq] at hc
      obtain ⟨k1, k2, -⟩ := (hsf1 p hp).1.good r hr
      apply hne
      rw [← hc.1.1, ← hc.1.2.1, ← hc.1.2.2, k1, k2]
    refine ⟨?_, ?_, ?_, ?_⟩
    · intro r hr
      rw [List.mem_filter] at hr
      obtain ⟨p, hp, -, h1, h2, h3, h4, h5⟩ := hgood r hr.1
      obtain ⟨f1, f2⟩ := hV.form p hp
      refine ⟨⟨h1 ▸ f1, ?_, by rw [h1]; exact h3, h4, h5⟩, hr.2⟩
      rw [h1, f2, ← h2]
      simp [List.append_assoc, RusState.entryFor]
    · intro a x e
      rw [List.filter_filter, ← List.countP_eq_length_filter]
      by_cases hmem : (a, x ++ e) ∈ V
      · refine (sum_countP_le V hsf _ (a, x ++ e) (hzero a x e) ?_).trans (hV.count _ _)
        refine countP_le_one _ RusReading.alt (hsf1 _ hmem).1.once _ x ?_
        intro r _ hc
        simp only [Bool.and_eq_true, decide_eq_true_eq] at hc
        exact hc.1.2.1
      · rw [List.countP_eq_zero.2]
        · omega
        · intro r hr
          obtain ⟨p, hp, hr⟩ := List.mem_flatMap.1 hr
          have := hzero a x e p hp (fun he => hmem (he ▸ hp))
          exact List.countP_eq_zero.1 this r hr
    · intro hs a ha hok x e g hg hwd
      rw [List.filter_filter, ← List.countP_eq_length_filter]
      have hb := (h.resolved ha).2.1
      have hcnt := hV.full (h.safe hs) a (x ++ e) (by rw [hwd]; simp [List.append_assoc, RusState.entryFor])
        (fun b hb' => h.covers a ha _ _ hb x e g hg b hb')
      rw [← hcnt]
      have hmem : (a, x ++ e) ∈ V := by
        rw [← List.count_pos_iff, hcnt, List.count_pos_iff]; exact ha
      refine sum_countP_eq V hsf _ (a, x ++ e) (hzero a x e) ?_
      obtain ⟨r, hr, hrx⟩ := (hsf1 _ hmem).1.all x e g rfl hg
      obtain ⟨k1, k2, -⟩ := (hsf1 _ hmem).1.good r hr
      have hle := countP_le_one _ RusReading.alt (hsf1 _ hmem).1.once
        (fun r => decide (r.art = a ∧ r.alt = x ∧ r.ending = e) && ok r.art.demand) x (by
          intro r _ hc
          simp only [Bool.and_eq_true, decide_eq_true_eq] at hc
          exact hc.1.2.1)
      have hpos : 0 < (hsf (a, x ++ e)).countP (fun r => decide (r.art = a ∧ r.alt = x ∧ r.ending = e) && ok r.art.demand) := by
        rw [List.countP_pos_iff]
        refine ⟨r, hr, ?_⟩
        simp only [Bool.and_eq_true, decide_eq_true_eq]
        simp only at k1 k2
        rw [hrx, List.append_cancel_left_eq] at k2
        exact ⟨⟨k1, hrx, k2⟩, by rw [k1]; exact hok⟩
      omega
    · refine List.Pairwise.filter _ ?_
      rw [List.pairwise_flatMap]
      constructor
      · intro p hp
        refine List.pairwise_of_forall_mem_list ?_
        intro r hr r' hr'
        rw [((hsf1 p hp).1.good r hr).1, ((hsf1 p hp).1.good r' hr').1]
      · refine hV.order.imp_of_mem ?_
        intro p q hp hq hpq r hr r' hr'
        rw [((hsf1 p hp).1.good r hr).1, ((hsf1 q hq).1.good r' hr').1]
        exact hpq
  · intro junk scheme dwsets hsch σ ρ target s
    simp only [rusScan]
    rw [hsch, show (st.images D.mtab).stemtree = stemImage (fileAll st.entries) from rfl, h.entries, hrun, List.filter_flatMap,
      ← runList_flatMap]
    refine runList_congr _ _ ?_
    intro p hp s
    have hpo : (st.entryFor D p.1).stpost = p.1.post := rfl
    have hid : (st.entryFor D p.1).nlexid = p.1.id := rfl
    rw [(hsf1 p hp).2, hpo, hid]
    have hall : ∀ r ∈ hsf p, (decide (dwsets &&& 2 ≠ 0) || isGood (scheme % 65536) r.art.demand)
        = (decide (dwsets &&& 2 ≠ 0) || isGood (scheme % 65536) p.1.demand) := by
      intro r hr
      rw [((hsf1 p hp).1.good r hr).1]
    rw [List.filter_congr hall]
    by_cases hc : (decide (dwsets &&& 2 ≠ 0) || isGood (scheme % 65536) p.1.demand) = true
    · rw [if_pos hc, hc, List.filter_true]
      refine runList_congr _ _ ?_
      intro r hr s
      obtain ⟨k1, k2, -⟩ := (hsf1 p hp).1.good r hr
      rw [k1, k2]
    · rw [if_neg hc]
      simp only [Bool.not_eq_true] at hc
      rw [hc, List.filter_false]; rfl

end Libmorph
