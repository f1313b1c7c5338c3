import Verif.Lemmas.RusLine
import Verif.Spec.RusHead
/-
The headword and the article made of it.
-/
namespace Libmorph
open Spec

theorem article_word {S : RusSource} {norm dies type ind comm : List Byte} {a : RusArticle} (h : ArticleIs S norm dies type ind comm a) :
    ∃ pos plural, TypeIs dies type pos plural ∧ a.pos = pos ∧ (a.PluralOnly ↔ plural = true) := by
  obtain ⟨pos, plural, post, base, cut, ht, _, _, _, h⟩ := h
  obtain ⟨h1, h63, _⟩ := TypeIs_pos ht
  obtain ⟨b1, b2, b3⟩ := word_bits h63 comm (plural := plural) rfl
  have key : ∀ k, k ≤ 2 → (typeBits pos plural + usageBits comm + 2048 * k) % 64 = pos ∧
      ((typeBits pos plural + usageBits comm + 2048 * k) &&& 0x40 ≠ 0 ↔ plural = true) := by
    intro k hk
    have b1' : (typeBits pos plural + usageBits comm) % 64 = pos := by
      rw [show (0x3f : Nat) = 2 ^ 6 - 1 from rfl, Nat.and_two_pow_sub_one_eq_mod] at b1; exact b1
    refine ⟨by omega, ?_⟩
    rw [← b3, show (0x40 : Nat) = 2 ^ 6 from rfl, Nat.and_two_pow, Nat.and_two_pow, Nat.testBit_eq_decide_div_mod_eq, Nat.testBit_eq_decide_div_mod_eq]
    have : (typeBits pos plural + usageBits comm + 2048 * k) / 2 ^ 6 % 2 = (typeBits pos plural + usageBits comm) / 2 ^ 6 % 2 := by omega
    rw [this]
  refine ⟨pos, plural, ht, ?_⟩
  rcases h with ⟨u, _, _, rfl⟩ | ⟨t, bare, _, _, _, remark, _, h⟩
  · exact key 0 (by omega)
  · rcases h with ⟨rfl, _⟩ | ⟨_, _, _, _, _, _, _, _, _, _, _, rfl⟩
    · exact key 0 (by omega)
    · exact key _ (kindOf_le _ _)

/-- The headword of an inflected article: stem, basic alternant, ending, suffix. -/
structure HeadParts (S : RusSource) (a : RusArticle) (w x e : List Byte) (g : FlexInfo) : Prop where
  pos : 1 ≤ a.pos ∧ a.pos < 48
  sing : a.pos ∈ [25, 26, 27, 28, 34, 36, 42] → ¬ a.PluralOnly
  table : ∃ name, S.endings name = some a.tfoffs
  ending : Ending S.ftab a.tfoffs e g.gramm g.flags
  word : w = a.stem ++ x ++ e ++ a.post
  alt : if a.mtoffs = 0 then x = [] else (x, 0) ∈ S.alts a.mtoffs ∧ ∀ y, (y, 0) ∈ S.alts a.mtoffs → y = x
  gram : if IsVerb a.pos then g.gramm % 128 = 1 else ∃ base, g.gramm = headGram a.pos (decide a.PluralOnly) base

theorem plainWord_at {norm : List Byte} (h : 64 ∉ norm) : 64 ∉ plainWord norm := by
  intro hm
  rw [plainWord, List.mem_map] at hm
  obtain ⟨c, hc, e⟩ := hm
  have hc' := (List.mem_filter.1 hc).1
  by_cases h8 : c = 184
  · rw [if_pos h8] at e; omega
  · rw [if_neg h8] at e; subst e; exact h hc'

theorem head_parts {T : RusTabs} {S : RusSource} (hf : RusFit T S) {norm dies type ind comm : List Byte} {a : RusArticle}
    (h : ArticleIs S norm dies type ind comm a) (hr : HeadRegular norm dies type ind comm) :
    (¬ a.Inflected ∧ plainWord norm = a.stem ++ a.post) ∨ (a.Inflected ∧ ∃ x e g, HeadParts S a (plainWord norm) x e g) := by
  obtain ⟨pos0, plural0, ht0, ep, epl⟩ := article_word h
  obtain ⟨pos, plural, post, base, cut, ht, hpost, hw, hcut, h⟩ := h
  obtain ⟨rfl, rfl⟩ := TypeIs_unique ht0 ht
  have hce : cut = post := by
    obtain ⟨b, hb⟩ := hr.suffix post hpost
    rw [hw] at hb
    exact (List.append_inj_right' hb hcut.symm).symm
  subst hce
  rcases h with ⟨u, hty, hu, rfl⟩ | ⟨t, bare, h48, ht', hbare, remark, _, hmix⟩
  · left
    refine ⟨?_, hw⟩
    rintro ⟨i1, i2⟩
    simp only at i1
    rw [ep] at i2
    rw [if_neg i2] at hu
    exact i1 hu
  · right
    have href := hf.refs _ _ ht'
    have hshape := hf.shapes _ _ _ _ _ base _ ht h48 ht'
    have h64 : 64 ∉ base := by
      intro hm
      exact plainWord_at hr.mark (by rw [hw]; simp [hm])
    obtain ⟨g, l, i, m, e, hl, hle, hbe, _⟩ : ∃ g, HeadEnding S.ftab t (IsVerb pos0) (headGram pos0 plural0 base) base bare g := by
      rcases hbare with ⟨rest, rfl, _⟩ | ⟨_, hg⟩ | ⟨_, _, hc, _⟩
      · simp at h64
      · exact hg
      · exact absurd (hr.colon hc _ _ ht) (by omega)
    have hin : InTable S.ftab t i := ⟨_, hl, by simp⟩
    have he : Ending S.ftab t e g.gramm g.flags ∧ (if IsVerb pos0 then g.gramm % 128 = 1 else g.gramm = headGram pos0 plural0 base) := by
      rcases hle with ⟨nv, hq, hfl, rfl, rfl⟩ | ⟨v, hq, hfl, rfl, rfl⟩ | ⟨v, hq, hfl, r, hrt, hr8, rfl, rfl⟩
      · rw [if_neg nv]; exact ⟨Ending.here hin hfl, hq⟩
      · rw [if_pos v]; exact ⟨Ending.here hin hfl, hq⟩
      · rw [HeadShape, if_pos v] at hshape
        obtain ⟨o1, _, o3, _, _⟩ := hshape.onward i hin hq hfl
        obtain ⟨_, o4⟩ := o3 r hrt
        obtain ⟨o5, o6, _⟩ := o4 hr8
        rw [if_pos v]
        refine ⟨Ending.next hin o1 (Ending.here hrt o6), ?_⟩
        simp only [o5]
        have : (i.gr ||| 0x8000) % 2 ^ 7 = i.gr % 2 ^ 7 ||| 0x8000 % 2 ^ 7 := Nat.or_mod_two_pow
        rw [show (2 : Nat) ^ 7 = 128 from rfl, hq] at this
        rw [this]
        rfl
    have main : ∀ (x : List Byte), (a.tfoffs = t) → (a.post = cut) → bare = a.stem ++ x → (if a.mtoffs = 0 then x = [] else (x, 0) ∈ S.alts a.mtoffs ∧ ∀ y, (y, 0) ∈ S.alts a.mtoffs → y = x) →
        a.Inflected ∧ ∃ x e g, HeadParts S a (plainWord norm) x e g := by
      intro x e1 e2 e3 e4
      refine ⟨⟨by rw [e1]; omega, by rw [ep]; omega⟩, x, e, g, ?_⟩
      have hsing : ∀ x ∈ wordTypes, x.1 ∈ [25, 26, 27, 28, 34, 36, 42] → x.2.1 = false := by decide +kernel
      have hpl : pos0 ∈ [25, 26, 27, 28, 34, 36, 42] → ¬ a.PluralOnly := by
        intro h1 h2
        obtain ⟨names, hn, _⟩ := ht
        have h3 : plural0 = false := hsing _ hn h1
        rw [epl, h3] at h2
        simp at h2
      refine ⟨by rw [ep]; exact ⟨(TypeIs_pos ht).1, h48⟩, by rw [ep]; exact hpl, ⟨_, by rw [e1]; exact ht'⟩, by rw [e1]; exact he.1, ?_, e4, ?_⟩
      · rw [hw, hbe, e3, e2]
      · rw [ep]
        by_cases hv : IsVerb pos0
        · rw [if_pos hv]; rw [if_pos hv] at he; exact he.2
        · rw [if_neg hv]; rw [if_neg hv] at he
          refine ⟨base, ?_⟩
          have : decide a.PluralOnly = plural0 := by
            cases plural0
            · simp only [Bool.false_eq_true, iff_false] at epl; simp [epl]
            · simp only [iff_true] at epl; simp [epl]
          rw [this]; exact he.2
    rcases hmix with ⟨rfl, _⟩ | ⟨l', cond, o, m', x, stem, hmx, _, _, hx, hb2, rfl⟩
    · exact main [] rfl rfl (by simp) (by simp)
    · have ho := hf.alts _ cond o (by rw [hmx]; simp)
      refine main x rfl rfl hb2 ?_
      simp only
      rw [if_neg ho.ref]
      obtain ⟨z, hz, hu⟩ := ho.basic
      refine ⟨hx, fun y hy => ?_⟩
      rw [hu y hy, hu x hx]

/-- The headword is written with the first variant of the stem. -/
theorem head_level {S : RusSource} {a : RusArticle} {w x e : List Byte} {g : FlexInfo} (h : HeadParts S a w x e g) (hm : ¬ MascPlural a) :
    a.mtoffs ≠ 0 → ∀ fl, Spec.altLevel a.wdinfo g.gramm fl = 1 := by
  intro hmt fl
  have hg := h.gram
  by_cases hv : IsVerb a.pos
  · rw [if_pos hv] at hg
    rw [Spec.altLevel, if_pos (show 1 ≤ a.wdinfo % 64 ∧ a.wdinfo % 64 ≤ 6 from hv), verbLevel, tense, person, participle]
    have h1 : g.gramm % 8 = 1 := by omega
    have h2 : g.gramm / 8 % 4 = 0 := by omega
    rw [h1, h2]
    simp
  · rw [if_neg hv] at hg
    obtain ⟨base, hg⟩ := hg
    have hmp : a.pos ∈ [7, 8, 9] → ¬ a.PluralOnly := fun h1 h2 => hm ⟨h2, h1, hmt⟩
    have hp : a.wdinfo % 64 = a.pos := rfl
    rw [Spec.altLevel]
    simp only [hp]
    rw [if_neg (show ¬ (1 ≤ a.pos ∧ a.pos ≤ 6) from hv)]
    have hc : ∀ p, caseNo g.gramm = 0 ∨ p := by
      intro p; left
      rw [hg, caseNo, headGram]
      split <;> split <;> (try split) <;> simp_all
    have hc0 : caseNo g.gramm = 0 := by
      rcases hc False with h | h
      · exact h
      · exact h.elim
    have hm1 : a.pos ∈ [7, 8, 9] → ∀ b, mascLevel b g.gramm = 1 := by
      intro h1 b
      have : g.gramm = 0 := by
        rw [hg, headGram, if_neg (by simp only [List.mem_cons, List.not_mem_nil, or_false] at h1 ⊢; omega)]
        simp [hmp h1]
      rw [mascLevel, if_pos ⟨by rw [this]; decide, Or.inl hc0⟩]
    have hn : ∀ b, nounLevel b g.gramm = 1 := by
      intro b
      rw [nounLevel, hc0, if_neg (by omega)]
    split
    · exact hm1 (by simp_all) _
    split
    · exact hm1 (by simp_all) _
    split
    · exact hm1 (by simp_all) _
    split
    · exact hn _
    split
    · exact hn _
    split
    · exact hn _
    split
    · rw [adjLevel, if_neg, if_neg]
      all_goals
        rw [hg, headGram]
        split <;> split <;> (try split) <;> simp_all
    · rfl

theorem head_plural {S : RusSource} {a : RusArticle} {w x e : List Byte} {g : FlexInfo} (h : HeadParts S a w x e g) (hp : a.PluralOnly) (hnv : ¬ IsVerb a.pos) :
    g.gramm &&& 0x800 ≠ 0 := by
  have hg := h.gram
  rw [if_neg hnv] at hg
  obtain ⟨base, hg⟩ := hg
  rw [hg, headGram, decide_eq_true hp]
  split
  · split <;> decide
  · decide

/-- The alternant of the headword is the one for the description of a headword, and no other. -/
theorem head_alt {S : RusSource} {mtab : List Byte} {arts : List RusArticle} {a : RusArticle} {w x e : List Byte} {g : FlexInfo} (h : HeadParts S a w x e g)
    (hm : ¬ MascPlural a) (fl : Nat) (y : List Byte) : (S.dict mtab arts).AltFor a ⟨g.gramm, fl⟩ y ↔ y = x := by
  have hx := h.alt
  rw [RusDict.AltFor]
  by_cases h0 : a.mtoffs = 0
  · rw [if_pos h0] at hx ⊢; rw [hx]
  · rw [if_neg h0] at hx ⊢
    have hl : Spec.altLevel a.wdinfo g.gramm fl = 1 := head_level h hm h0 fl
    have hs : ∀ z, Serves ((S.dict mtab arts).alts a.mtoffs) z (1 - 1) → z = x := by
      rintro z (h1 | ⟨h1, _⟩)
      · exact hx.2 z h1
      · exact hx.2 z h1
    simp only [hl]
    constructor
    · rintro ⟨h1, _⟩; exact hs y h1
    · rintro rfl
      exact ⟨Or.inl hx.1, fun z hz => Or.inl (hs z hz)⟩

theorem head_forms {S : RusSource} {mtab : List Byte} {arts : List RusArticle} {a : RusArticle} {w x e : List Byte} {g : FlexInfo} (h : HeadParts S a w x e g)
    (hm : ¬ MascPlural a) (ht : HeadTables S) {fs : List (List Byte)} (hF : (S.dict mtab arts).FormsOf a ⟨g.gramm, 3⟩ fs) :
    w ∈ fs ∧ (HeadOnce S → g.gramm ∈ [0, 0x200, 0x800, 1, 0x8001, 0x8200] → fs = [w]) := by
  obtain ⟨name, hname⟩ := h.table
  rcases hF with ⟨y, es, h1, h2, rfl⟩ | ⟨h1, _⟩
  · rw [head_alt h hm] at h1
    subst h1
    refine ⟨List.mem_map.2 ⟨e, (h2.mem e).2 ⟨g.flags, h.ending, ht.alive name _ hname _ _ _ h.ending⟩, h.word.symm⟩, ?_⟩
    intro ho hq
    have hall : ∀ e' ∈ es, e' = e := by
      intro e' he'
      obtain ⟨fl, h3, _⟩ := (h2.mem e').1 he'
      exact ho name _ hname _ hq _ _ _ _ h3 h.ending
    have hin := (h2.mem e).2 ⟨g.flags, h.ending, ht.alive name _ hname _ _ _ h.ending⟩
    have horder := h2.order
    have : es = [e] := by
      match es, hall, hin, horder with
      | [], _, hin, _ => simp at hin
      | [e'], hall, _, _ => rw [hall e' (by simp)]
      | e' :: e'' :: es, hall, _, horder =>
        exfalso
        have h1 := (List.pairwise_cons.1 horder).1 e'' (by simp)
        rw [hall e' (by simp), hall e'' (by simp), bytesLt_irrefl] at h1
        simp at h1
    rw [this, h.word]; rfl
  · exact absurd ((head_alt h hm 3 x).2 rfl) (h1 x)

/-- The description of the headword is what is asked for, or that made reflexive. -/
theorem head_request_q {S : RusSource} {a : RusArticle} {w x e : List Byte} {g : FlexInfo} (h : HeadParts S a w x e g)
    (hb : ∀ e gr fl, Ending S.ftab a.tfoffs e gr fl → gr % 128 = 1 → gr = 1 ∨ gr = 0x8001)
    (d : FlexInfo) (dwsets : Nat) (hd : dwsets &&& 0x100 = 0) :
    (dictRequest a.wdinfo d dwsets = ⟨g.gramm, 3⟩ ∧ g.gramm ∈ [0, 0x200, 0x800, 1]) ∨
    ((VerbPos a.wdinfo ∨ AdjPos a.wdinfo) ∧ ∃ q ∈ [1, 0x200], dictRequest a.wdinfo d dwsets = ⟨q, 3⟩ ∧ g.gramm = q + 0x8000) := by
  have hg := h.gram
  have hp : a.wdinfo % 64 = a.pos := rfl
  have hpl : a.PluralOnly ↔ Spec.PluralOnly a.wdinfo := by
    rw [RusArticle.PluralOnly, Spec.PluralOnly, show (0x40 : Nat) = 2 ^ 6 from rfl, Nat.and_two_pow, Nat.testBit_eq_decide_div_mod_eq, show (2 : Nat) ^ 6 = 64 from rfl]
    by_cases hc : a.wdinfo / 64 % 2 = 1 <;> simp [hc]
  by_cases hv : IsVerb a.pos
  · rw [if_pos hv] at hg
    have hv' : VerbPos a.wdinfo := by rw [VerbPos, hp]; exact hv.2
    have hq : dictRequest a.wdinfo d dwsets = ⟨1, 3⟩ := by
      rw [dictRequest, if_pos hv', if_neg (by simp [hd])]; rfl
    rcases hb _ _ _ h.ending hg with h1 | h1
    · left; rw [hq, h1]; exact ⟨rfl, by simp⟩
    · right; exact ⟨Or.inl hv', 1, by simp, hq, h1⟩
  · rw [if_neg hv] at hg
    obtain ⟨base, hg⟩ := hg
    have hv' : ¬ VerbPos a.wdinfo := by
      rw [VerbPos, hp]; intro hc; exact hv ⟨h.pos.1, hc⟩
    by_cases ha : a.pos ∈ [25, 26, 27, 28, 34, 36, 42]
    · have ha' : AdjPos a.wdinfo := by rw [AdjPos, hp]; exact ha
      have hn := h.sing ha
      have hq : dictRequest a.wdinfo d dwsets = ⟨0x200, 3⟩ := by
        rw [dictRequest, if_neg hv', if_pos ha', if_neg (by rw [← hpl]; exact hn)]; rfl
      rw [headGram, if_pos ha, decide_eq_false hn] at hg
      simp only [Bool.false_eq_true, if_false, Nat.add_zero] at hg
      split at hg
      · right; exact ⟨Or.inr ha', 0x200, by simp, hq, hg⟩
      · left; rw [hq, hg]; exact ⟨rfl, by simp⟩
    · have ha' : ¬ AdjPos a.wdinfo := by rw [AdjPos, hp]; exact ha
      left
      rw [headGram, if_neg ha] at hg
      rw [dictRequest, if_neg hv', if_neg ha']
      by_cases hc : a.PluralOnly
      · rw [if_pos (hpl.1 hc)]
        rw [decide_eq_true hc] at hg
        rw [hg]; exact ⟨rfl, by simp⟩
      · rw [if_neg (by rw [← hpl]; exact hc)]
        rw [decide_eq_false hc] at hg
        rw [hg]; exact ⟨rfl, by simp⟩

theorem head_request {S : RusSource} {a : RusArticle} {w x e : List Byte} {g : FlexInfo} (h : HeadParts S a w x e g) (ht : HeadTables S)
    (d : FlexInfo) (dwsets : Nat) (hd : dwsets &&& 0x100 = 0) :
    (dictRequest a.wdinfo d dwsets = ⟨g.gramm, 3⟩ ∧ g.gramm ∈ [0, 0x200, 0x800, 1]) ∨
    ((VerbPos a.wdinfo ∨ AdjPos a.wdinfo) ∧ ∃ q ∈ [1, 0x200], dictRequest a.wdinfo d dwsets = ⟨q, 3⟩ ∧ g.gramm = q + 0x8000) := by
  obtain ⟨name, hname⟩ := h.table
  exact head_request_q h (fun e gr fl he => ht.bare name _ hname e gr fl he) d dwsets hd

theorem head_request_at {S : RusSource} {a : RusArticle} {w x e : List Byte} {g : FlexInfo} (h : HeadParts S a w x e g)
    (hb : ∀ e gr fl, Ending S.ftab a.tfoffs e gr fl → gr % 128 = 1 → gr = 1 ∨ gr = 0x8001) (d : FlexInfo) (dwsets : Nat) (hd : dwsets &&& 0x100 = 0) :
    dictRequest a.wdinfo d dwsets = ⟨g.gramm, 3⟩ ∨
    ((VerbPos a.wdinfo ∨ AdjPos a.wdinfo) ∧ g.gramm = (dictRequest a.wdinfo d dwsets).gramm + 0x8000) := by
  rcases head_request_q h hb d dwsets hd with ⟨h1, _⟩ | ⟨h1, q, _, h2, h3⟩
  · exact Or.inl h1
  · exact Or.inr ⟨h1, by rw [h2]; exact h3⟩

/-- The headword is among the dictionary forms. -/
theorem head_dict {S : RusSource} {mtab : List Byte} {arts : List RusArticle} {a : RusArticle} {w x e : List Byte} {g : FlexInfo} (h : HeadParts S a w x e g)
    (hi : a.Inflected) (hm : ¬ MascPlural a) (ht : HeadTables S) {d : FlexInfo} {dwsets : Nat} (hd : dwsets &&& 0x100 = 0) {fs : List (List Byte)}
    (hF : (S.dict mtab arts).DictForms a d dwsets fs) : w ∈ fs ∧ (HeadOnce S → fs = [w]) := by
  obtain ⟨name, hname⟩ := h.table
  rw [RusDict.DictForms, if_pos hi] at hF
  obtain ⟨hne, hF⟩ := hF
  have key : g.gramm ∈ [0, 0x200, 0x800, 1, 0x8001, 0x8200] → (S.dict mtab arts).FormsOf a ⟨g.gramm, 3⟩ fs → w ∈ fs ∧ (HeadOnce S → fs = [w]) := by
    intro hq hf
    obtain ⟨h1, h2⟩ := head_forms h hm ht hf
    exact ⟨h1, fun ho => h2 ho hq⟩
  rcases head_request h ht d dwsets hd with ⟨hq, hin⟩ | ⟨_, q, hq, hreq, hg⟩
  · rw [hq] at hF
    have hin' : g.gramm ∈ [0, 0x200, 0x800, 1, 0x8001, 0x8200] := by
      simp only [List.mem_cons, List.not_mem_nil, or_false] at hin ⊢; omega
    rcases hF with hF | ⟨_, hF, _⟩
    · exact key hin' hF
    · have := (head_forms h hm ht hF).1
      simp at this
  · rw [hreq] at hF
    have hin' : g.gramm ∈ [0, 0x200, 0x800, 1, 0x8001, 0x8200] := by
      simp only [List.mem_cons, List.not_mem_nil, or_false] at hq ⊢; omega
    rcases hF with hF | ⟨_, _, hF⟩
    · exfalso
      rcases hF with ⟨y, es, _, h2, rfl⟩ | ⟨_, rfl⟩
      · cases es with
        | nil => exact hne rfl
        | cons e' es =>
          obtain ⟨fl, h3, _⟩ := (h2.mem e').1 (by simp)
          have h4 := h.ending
          rw [hg] at h4
          exact ht.apart name _ hname q hq _ _ _ _ h3 h4
      · exact hne rfl
    · rw [hg] at key
      rw [hg] at hin'
      exact key hin' hF

end Libmorph
