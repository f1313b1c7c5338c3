import Verif.Spec.RusFit
import Verif.Lemmas.RusStrip
import Verif.Lemmas.RusForms
/-
Choosing the alternation of an article.
-/
namespace Libmorph
open Libmorph.Spec

/-! ### The condition -/

theorem mapMixType_mem (cond : List Byte) : ∀ (l : List (List Byte × Nat)) (n : Nat), mapMixType cond l = some n → (cond, n) ∈ l
  | [], n, h => by simp [mapMixType] at h
  | p :: l, n, h => by
    rw [mapMixType] at h
    split at h
    · rename_i e
      cases h; simp [e]
    · split at h
      · simp at h
      · exact List.mem_cons_of_mem _ (mapMixType_mem cond l n h)

theorem mix_words : utf8to1251 "ге" = ru "ге" ∧ utf8to1251 "й" = ru "й" ∧ utf8to1251 "к" = ru "к" ∧ utf8to1251 "ле" = ru "ле" ∧ utf8to1251 "о" = ru "о" ∧
    utf8to1251 "ш" = ru "ш" ∧ utf8to1251 "ь" = ru "ь" ∧ utf8to1251 "аеиоуыэюя" = ru "аеиоуыэюя" ∧ utf8to1251 "жцчшщ" = ru "жцчшщ" ∧
    utf8to1251 "кгх" = ru "кгх" ∧ utf8to1251 "е" = ru "е" := by decide +kernel

theorem mapMix_vals : mapMixType (ru "ге") mixTypeList = some 1 ∧ mapMixType (ru "й") mixTypeList = some 5 ∧ mapMixType (ru "к") mixTypeList = some 3 ∧
    mapMixType (ru "ле") mixTypeList = some 0 ∧ mapMixType (ru "о") mixTypeList = some 6 ∧ mapMixType (ru "ш") mixTypeList = some 2 ∧
    mapMixType (ru "ь") mixTypeList = some 4 := by decide +kernel

/-- Whether the letter before the last one is one of those. -/
theorem before_last (stem : List Byte) (P : Byte → Bool) :
    ((stem.length ≥ 2 && (stem[stem.length - 2]?.any P)) = true) ↔ ∃ b c v, P v = true ∧ stem = b ++ [v, c] := by
  constructor
  · intro h
    simp only [Bool.and_eq_true, decide_eq_true_eq] at h
    obtain ⟨h1, h2⟩ := h
    have hlt : stem.length - 2 < stem.length := by omega
    have hlt' : stem.length - 1 < stem.length := by omega
    rw [List.getElem?_eq_getElem hlt] at h2
    refine ⟨stem.take (stem.length - 2), stem[stem.length - 1], stem[stem.length - 2], by simpa using h2, ?_⟩
    conv => lhs; rw [← List.take_append_drop (stem.length - 2) stem]
    rw [List.drop_eq_getElem_cons hlt]
    congr 2
    rw [show stem.length - 2 + 1 = stem.length - 1 by omega, List.drop_eq_getElem_cons hlt', show stem.length - 1 + 1 = stem.length by omega, List.drop_length]
  · rintro ⟨b, c, v, hv, rfl⟩
    simp [hv]

theorem third_last (stem : List Byte) (P : Byte → Byte → Bool) :
    (stem.length ≥ 3 ∧ ∃ u v, stem[stem.length - 3]? = some u ∧ stem[stem.length - 2]? = some v ∧ P u v = true) ↔
      ∃ b c u v, P u v = true ∧ stem = b ++ [u, v, c] := by
  constructor
  · rintro ⟨h1, u, v, h2, h3, h4⟩
    rw [List.getElem?_eq_some_iff] at h2 h3
    obtain ⟨l2, rfl⟩ := h2
    obtain ⟨l3, rfl⟩ := h3
    have l1 : stem.length - 1 < stem.length := by omega
    refine ⟨stem.take (stem.length - 3), stem[stem.length - 1], _, _, h4, ?_⟩
    conv => lhs; rw [← List.take_append_drop (stem.length - 3) stem]
    rw [List.drop_eq_getElem_cons l2]
    congr 2
    rw [show stem.length - 3 + 1 = stem.length - 2 by omega, List.drop_eq_getElem_cons l3]
    congr 1
    rw [show stem.length - 2 + 1 = stem.length - 1 by omega, List.drop_eq_getElem_cons l1, show stem.length - 1 + 1 = stem.length by omega, List.drop_length]
  · rintro ⟨b, c, u, v, h, rfl⟩
    refine ⟨by simp, u, v, by simp, by simp, h⟩

theorem altSuits_iff (w pos : Nat) (hw : w &&& 0x3f = pos) (stem rems cond : List Byte) :
    altSuits w stem rems cond = true ↔ Condition pos stem rems cond := by
  obtain ⟨w1, w2, w3, w4, w5, w6, w7, w8, w9, w10, w11⟩ := mix_words
  obtain ⟨v1, v2, v3, v4, v5, v6, v7⟩ := mapMix_vals
  have d1 : ru "ге" ≠ ru "о" ∧ ru "ге" ≠ ru "ле" ∧ ru "ге" ≠ ru "ш" ∧ ru "ге" ≠ ru "к" ∧ ru "ге" ≠ ru "ь" ∧ ru "ге" ≠ ru "й" := by decide +kernel
  have d2 : ru "й" ≠ ru "о" ∧ ru "й" ≠ ru "ле" ∧ ru "й" ≠ ru "ге" ∧ ru "й" ≠ ru "ш" ∧ ru "й" ≠ ru "к" ∧ ru "й" ≠ ru "ь" := by decide +kernel
  have d3 : ru "к" ≠ ru "о" ∧ ru "к" ≠ ru "ле" ∧ ru "к" ≠ ru "ге" ∧ ru "к" ≠ ru "ш" ∧ ru "к" ≠ ru "ь" ∧ ru "к" ≠ ru "й" := by decide +kernel
  have d4 : ru "ле" ≠ ru "о" ∧ ru "ле" ≠ ru "ге" ∧ ru "ле" ≠ ru "ш" ∧ ru "ле" ≠ ru "к" ∧ ru "ле" ≠ ru "ь" ∧ ru "ле" ≠ ru "й" := by decide +kernel
  have d5 : ru "ш" ≠ ru "о" ∧ ru "ш" ≠ ru "ле" ∧ ru "ш" ≠ ru "ге" ∧ ru "ш" ≠ ru "к" ∧ ru "ш" ≠ ru "ь" ∧ ru "ш" ≠ ru "й" := by decide +kernel
  have d6 : ru "ь" ≠ ru "о" ∧ ru "ь" ≠ ru "ле" ∧ ru "ь" ≠ ru "ге" ∧ ru "ь" ≠ ru "ш" ∧ ru "ь" ≠ ru "к" ∧ ru "ь" ≠ ru "й" := by decide +kernel
  have e1 : ru "е" = [229] := by decide +kernel
  have e2 : ru "ь" = [252] := by decide +kernel
  have e3 : ru "й" = [233] := by decide +kernel
  have e4 : ru "ле" = [235, 229] := by decide +kernel
  rw [altSuits, hw, Condition]
  by_cases hv : IsVerb pos
  · rw [if_pos (show 1 ≤ pos ∧ pos ≤ 6 from hv)]
    simp only [Bool.or_eq_true, decide_eq_true_eq, hv, true_and, not_true_eq_false, false_and, or_false]
    rw [w5]
    exact Or.comm
  · rw [if_neg (show ¬ (1 ≤ pos ∧ pos ≤ 6) from hv)]
    simp only [hv, not_false_eq_true, true_and, false_and, false_or]
    by_cases ho : cond = ru "о"
    · subst ho
      rw [v5]
      simp
    by_cases hle : cond = ru "ле"
    · subst hle
      obtain ⟨d1, d2, d3, d4, d5, d6⟩ := d4
      rw [v4]
      simp only [d1, d2, d3, d4, d5, d6, false_and, or_false, false_or, true_and, w4]
      rw [e4]
      simp only [Bool.and_eq_true, decide_eq_true_eq, List.append_assoc, List.cons_append, List.nil_append]
      have t := third_last stem fun u v => u = 235 && v = 229
      simp only [Bool.and_eq_true, decide_eq_true_eq] at t
      constructor
      · rintro ⟨h1, h2⟩
        have l3 : stem.length - 3 < stem.length := by omega
        have l2 : stem.length - 2 < stem.length := by omega
        rw [List.drop_eq_getElem_cons l3, show stem.length - 3 + 1 = stem.length - 2 by omega, List.drop_eq_getElem_cons l2] at h2
        simp only [List.take_succ_cons, List.take_zero, List.cons.injEq, and_true] at h2
        obtain ⟨b, c, u, v, ⟨rfl, rfl⟩, e⟩ := t.1 ⟨h1, _, _, List.getElem?_eq_getElem l3, List.getElem?_eq_getElem l2, h2.1, h2.2⟩
        exact ⟨b, c, e⟩
      · rintro ⟨b, c, rfl⟩
        simp
    by_cases hge : cond = ru "ге"
    · subst hge
      obtain ⟨d1, d2, d3, d4, d5, d6⟩ := d1
      rw [v1]
      simp only [d1, d2, d3, d4, d5, d6, false_and, or_false, false_or, true_and, w8, w11]
      rw [e1]
      generalize ru "аеиоуыэюя" = vow
      simp only [List.head?_cons, Bool.and_eq_true, decide_eq_true_eq, List.append_assoc, List.cons_append, List.nil_append]
      have t := third_last stem fun u v => u ∈ vow && v = 229
      simp only [Bool.and_eq_true, decide_eq_true_eq] at t
      constructor
      · rintro ⟨⟨h1, h2⟩, h3⟩
        have ⟨u, hu, hu'⟩ : ∃ u, stem[stem.length - 3]? = some u ∧ decide (u ∈ vow) = true := by
          cases hx : stem[stem.length - 3]? with
          | none => rw [hx] at h2; simp at h2
          | some u => rw [hx] at h2; exact ⟨u, rfl, h2⟩
        obtain ⟨b, c, u', v, ⟨hm, rfl⟩, e⟩ := t.1 ⟨h1, u, 229, hu, of_decide_eq_true h3, by simpa using hu', rfl⟩
        exact ⟨b, c, u', hm, e⟩
      · rintro ⟨b, c, v, hv, rfl⟩
        simp [hv]
    by_cases hsh : cond = ru "ш"
    · subst hsh
      obtain ⟨d1, d2, d3, d4, d5, d6⟩ := d5
      rw [v6]
      simp only [d1, d2, d3, d4, d5, d6, false_and, or_false, false_or, true_and, w9]
      generalize ru "жцчшщ" = his
      rw [before_last stem fun c => decide (c ∈ his)]
      simp only [decide_eq_true_eq]
    by_cases hk : cond = ru "к"
    · subst hk
      obtain ⟨d1, d2, d3, d4, d5, d6⟩ := d3
      rw [v3]
      simp only [d1, d2, d3, d4, d5, d6, false_and, or_false, false_or, true_and, w10]
      generalize ru "кгх" = his
      rw [before_last stem fun c => decide (c ∈ his)]
      simp only [decide_eq_true_eq]
    have one : ∀ x : Byte, ((decide (stem.length ≥ 2) && decide (stem[stem.length - 2]? = some x)) = true) ↔ ∃ b c, stem = b ++ [x] ++ [c] := by
      intro x
      have t := before_last stem fun c => decide (c = x)
      have e : (stem[stem.length - 2]?.any fun c => decide (c = x)) = decide (stem[stem.length - 2]? = some x) := by
        cases stem[stem.length - 2]? <;> simp
      rw [e] at t
      rw [t]
      simp
    by_cases hs : cond = ru "ь"
    · subst hs
      obtain ⟨d1, d2, d3, d4, d5, d6⟩ := d6
      rw [v7]
      simp only [d1, d2, d3, d4, d5, d6, false_and, or_false, false_or, true_and, w7]
      rw [e2]
      exact one 252
    by_cases hy : cond = ru "й"
    · subst hy
      obtain ⟨d1, d2, d3, d4, d5, d6⟩ := d2
      rw [v2]
      simp only [d1, d2, d3, d4, d5, d6, false_and, or_false, false_or, true_and, w2]
      rw [e3]
      exact one 233
    · have : mapMixType cond mixTypeList = none := by
        cases hm : mapMixType cond mixTypeList with
        | none => rfl
        | some n =>
          exfalso
          have hin := mapMixType_mem cond _ n hm
          rw [mixTypeList, w1, w2, w3, w4, w5, w6, w7] at hin
          simp only [List.mem_cons, Prod.mk.injEq, List.not_mem_nil, or_false] at hin
          rcases hin with h | h | h | h | h | h | h
          · exact hge h.1
          · exact hy h.1
          · exact hk h.1
          · exact hle h.1
          · exact ho h.1
          · exact hsh h.1
          · exact hs h.1
      rw [this]
      simp only [ho, hle, hge, hsh, hk, hs, hy, false_and, or_false, exists_const, Bool.false_eq_true]

/-! ### The basic alternant -/

theorem defaultLoop_ser (head : Mix → Nat) (l : List Mix) (hh : ∀ m ∈ l, head m &&& 0x0f = m.str.length) (rest : List Byte) (l1 : List Mix) (m : Mix) (l2 : List Mix)
    (e : l = l1 ++ m :: l2) (h1 : ∀ x ∈ l1, head x &&& 0x10 = 0) (hm : head m &&& 0x10 ≠ 0) :
    ∃ r, defaultLoop l.length ((l.map fun m => head m :: m.str).flatten ++ rest) = some (head m :: (m.str ++ r)) := by
  induction l1 generalizing l with
  | nil =>
    subst e
    refine ⟨(l2.map fun m => head m :: m.str).flatten ++ rest, ?_⟩
    simp only [List.nil_append, List.length_cons, defaultLoop, List.map_cons, List.flatten_cons, List.cons_append, getbyte, Option.bind_eq_bind, Option.bind_some, if_pos hm,
      List.append_assoc]
  | cons x l1 ih =>
    subst e
    obtain ⟨r, hr⟩ := ih (l1 ++ m :: l2) (fun y hy => hh y (by simp only [List.cons_append, List.mem_cons]; exact Or.inr hy)) rfl (fun y hy => h1 y (by simp [hy]))
    refine ⟨r, ?_⟩
    have hx := h1 x (by simp)
    simp only [List.cons_append, List.length_cons, defaultLoop, List.map_cons, List.flatten_cons, getbyte, Option.bind_eq_bind, Option.bind_some, hx, ne_eq,
      not_true_eq_false, if_false, hh x (by simp), List.append_assoc, List.drop_left]
    exact hr

theorem head_basic (hist : List (List Byte × Nat)) (hok : MixOk hist) {m : Mix} (hm : m ∈ mixOf hist) :
    mixHead (spareBits (mixOf hist)) m &&& 0x10 ≠ 0 ↔ (m.str, 0) ∈ hist := by
  have h := mixHead_serves hist hok hm 0
  rw [show (0x10 : Nat) = 2 ^ 4 from rfl, and_two_pow_if]
  rw [Nat.testBit_shiftRight] at h
  have e : Serves hist m.str 0 ↔ (m.str, 0) ∈ hist := by
    constructor
    · rintro (h | ⟨h, _⟩) <;> exact h
    · exact Or.inl
  rw [← e, ← h]
  cases (mixHead (spareBits (mixOf hist)) m).testBit (4 + 0) <;> simp

theorem defaultStr_fit {mtab : List Byte} {alts : List (List Byte × Nat)} {o : Nat} (h : AltFit mtab alts o) :
    ∃ x hd r, (x, 0) ∈ alts ∧ (∀ y, (y, 0) ∈ alts → y = x) ∧ hd &&& 0x0f = x.length ∧ defaultStr mtab o = some (hd :: (x ++ r)) := by
  obtain ⟨x, hx, huniq⟩ := h.basic
  obtain ⟨rest, hat⟩ := h.at_
  obtain ⟨i1, i2, i3, i4, i5, i6⟩ := mixOf_inv alts h.ok.levels
  obtain ⟨m, hm, rfl⟩ := i4 _ hx
  obtain ⟨l1, l2, e⟩ := List.append_of_mem hm
  have hl : (mixOf alts).length < 128 := by have := h.few; omega
  have hhead : ∀ m ∈ mixOf alts, mixHead (spareBits (mixOf alts)) m &&& 0x0f = m.str.length := by
    intro m hm
    obtain ⟨k, hk⟩ := i3 m hm
    exact (mixHead_spec _ m (h.ok.short _ hk) (i2 m hm)).2.1
  have hfirst : ∀ y ∈ l1, mixHead (spareBits (mixOf alts)) y &&& 0x10 = 0 := by
    intro y hy
    refine Classical.byContradiction fun h0 => ?_
    have hy' : y ∈ mixOf alts := by rw [e]; simp [hy]
    have hs := huniq _ ((head_basic alts h.ok hy').1 h0)
    unfold MixSorted at i1
    rw [e, List.pairwise_append] at i1
    have := i1.2.2 y hy m (by simp)
    rw [hs, bytesLt_irrefl] at this
    simp at this
  obtain ⟨r, hr⟩ := defaultLoop_ser (mixHead (spareBits (mixOf alts))) (mixOf alts) hhead rest l1 m l2 e hfirst ((head_basic alts h.ok hm).2 hx)
  refine ⟨m.str, _, r, hx, huniq, hhead m hm, ?_⟩
  rw [defaultStr, hat]
  simp only [mixSer, List.cons_append, getbyte, Option.bind_eq_bind, Option.bind_some]
  rw [Nat.mod_eq_of_lt (by omega), if_neg (by omega)]
  exact hr

theorem stemHasTail_some (s x r : List Byte) (hd : Nat) (h : hd &&& 0x0f = x.length) :
    stemHasTail s (hd :: (x ++ r)) = some (decide (x <:+ s)) := by
  rw [stemHasTail]
  simp only [getbyte, Option.bind_eq_bind, Option.bind_some, h]
  by_cases hl : x.length ≤ s.length
  · rw [if_pos hl, if_neg (by simp)]
    congr 1
    rw [decide_eq_decide, List.take_left]
    constructor
    · intro h2
      exact ⟨s.take (s.length - x.length), by conv => { lhs; arg 2; rw [← h2] }; exact List.take_append_drop _ _⟩
    · rintro ⟨b, rfl⟩
      simp
  · rw [if_neg hl]
    congr 1
    symm
    rw [decide_eq_false_iff_not]
    rintro ⟨b, rfl⟩
    simp at hl

theorem altFind_spec {mtab : List Byte} {alts : Nat → List (List Byte × Nat)} {w pos : Nat} (hw : w &&& 0x3f = pos) (stem rems : List Byte) :
    ∀ es : List (List Byte × Nat), (∀ p ∈ es, AltFit mtab (alts p.2) p.2) →
      (altFind mtab w stem rems es = some 0 ∧ ∀ p ∈ es, ¬ Suits (alts p.2) pos stem rems p.1) ∨
      ∃ l cond o m, es = l ++ (cond, o) :: m ∧ (∀ p ∈ l, ¬ Suits (alts p.2) pos stem rems p.1) ∧ Suits (alts o) pos stem rems cond ∧
        altFind mtab w stem rems es = some o
  | [], _ => Or.inl ⟨rfl, by simp⟩
  | (cond, o) :: es, h => by
    obtain ⟨x, hd, r, hx, huniq, hl, hdef⟩ := defaultStr_fit (h (cond, o) (by simp))
    have hs : Suits (alts o) pos stem rems cond ↔ (decide (x <:+ stem) && altSuits w stem rems cond) = true := by
      rw [Suits, Bool.and_eq_true, decide_eq_true_eq, altSuits_iff w pos hw]
      refine and_congr_left fun _ => ⟨?_, fun h => ⟨x, hx, h⟩⟩
      rintro ⟨y, hy, hy'⟩
      rw [← huniq y hy]; exact hy'
    have unf : altFind mtab w stem rems ((cond, o) :: es) = if decide (x <:+ stem) && altSuits w stem rems cond then some o else altFind mtab w stem rems es := by
      rw [altFind, hdef]
      simp only [Option.bind_eq_bind, Option.bind_some, stemHasTail_some stem x r hd hl, Option.pure_def]
    rw [unf]
    by_cases hc : Suits (alts o) pos stem rems cond
    · rw [if_pos (hs.1 hc)]
      exact Or.inr ⟨[], cond, o, es, rfl, by simp, hc, rfl⟩
    · rw [if_neg (fun e => hc (hs.2 e))]
      rcases altFind_spec hw stem rems es fun p hp => h p (by simp [hp]) with ⟨a1, a2⟩ | ⟨l, c, o', m, a1, a2, a3, a4⟩
      · refine Or.inl ⟨a1, fun p hp => ?_⟩
        rcases List.mem_cons.1 hp with rfl | hp
        · exact hc
        · exact a2 p hp
      · refine Or.inr ⟨(cond, o) :: l, c, o', m, by rw [a1]; rfl, fun p hp => ?_, a3, a4⟩
        rcases List.mem_cons.1 hp with rfl | hp
        · exact hc
        · exact a2 p hp

end Libmorph
