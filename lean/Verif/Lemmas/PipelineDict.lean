import Verif.Lemmas.PipelineForms
import Verif.Props.C44
/-
Forms for a description and dictionary forms of articles of the source and of articles with references, for C69, C77.
-/
namespace Libmorph
open Spec

theorem stepServes_unique {steps : List (List Byte)} {x y : List Byte} {k : Nat} (h : StepServes steps x k) (h' : StepServes steps y k) : x = y := by
  rcases h with h | ⟨h, _, h2⟩ <;> rcases h' with h' | ⟨h', _, h2'⟩
  · rw [h] at h'; simpa using h'
  · rw [h] at h'; simp at h'
  · rw [h] at h'; simp at h'
  · rw [h2] at h2'; simpa using h2'

/-- The alternant for a request. -/
theorem altFor_iff {Z : RusSrc} {T : RusTabs} (hz : TablesFit Z) {A : SrcArticle} {a : RusArticle} (h : Realizes Z T A a) (mtab : List Byte)
    (all : List RusArticle) (fx : FlexInfo) (x : List Byte) : ((pipeSource Z T).dict mtab all).AltFor a fx x ↔
      ((A.alt = none ∧ x = []) ∨ ∃ l, A.alt = some l ∧ StepServes l.steps x (altLevel A.info fx.gramm fx.flags - 1)) := by
  rw [RusDict.AltFor, h.info]
  rcases h.alt with ⟨a1, a2⟩ | ⟨l, a1, a2, a3, a4, a5⟩
  · rw [if_pos a2, a1]; simp
  · rw [if_neg a3, a2]
    have hs : ∀ y, Serves (((pipeSource Z T).dict mtab all).alts a.mtoffs) y (altLevel A.info fx.gramm fx.flags - 1) ↔
        StepServes l.steps y (altLevel A.info fx.gramm fx.flags - 1) := fun y => pipeAlts_serves hz a1 a5 y _
    constructor
    · rintro ⟨h1, _⟩
      exact Or.inr ⟨l, rfl, (hs x).1 h1⟩
    · rintro (⟨h1, _⟩ | ⟨l', h1, h2⟩)
      · simp at h1
      · cases h1
        exact ⟨(hs x).2 h2, fun y hy => Or.inl (stepServes_unique ((hs y).1 hy) h2)⟩

/-- The forms for a request. -/
theorem formsOf_mem {Z : RusSrc} {T : RusTabs} (hz : TablesFit Z) (hc : Compiled Z T) {A : SrcArticle} {a : RusArticle} (h : Realizes Z T A a)
    {name : List Byte} (h1 : A.table = some name) (h2 : mapFind T.findex name = some a.tfoffs) {mtab : List Byte} {all : List RusArticle} {fx : FlexInfo}
    {fs : List (List Byte)} (hF : ((pipeSource Z T).dict mtab all).FormsOf a fx fs) (f : List Byte) :
    f ∈ fs ↔ SrcFormAt Z.flex A name fx.gramm fx.flags f := by
  have he : ∀ e fl, Ending ((pipeSource Z T).dict mtab all).ftab a.tfoffs e fx.gramm fl ↔ SrcEnding Z.flex name e fx.gramm fl :=
    fun e fl => ending_iff hz hc h2 e fx.gramm fl
  rcases hF with ⟨x, es, k1, k2, rfl⟩ | ⟨k1, rfl⟩
  · have ax := (altFor_iff hz h mtab all fx x).1 k1
    rw [List.mem_map]
    constructor
    · rintro ⟨e, k3, rfl⟩
      obtain ⟨fl, k4, k5⟩ := (k2.mem e).1 k3
      exact ⟨x, e, fl, (he e fl).1 k4, k5, ax, by rw [h.stem, h.post]⟩
    · rintro ⟨y, e, fl, k4, k5, ay, rfl⟩
      have : y = x := by
        rcases ax with ⟨b1, b2⟩ | ⟨l, b1, b2⟩ <;> rcases ay with ⟨c1, c2⟩ | ⟨l', c1, c2⟩
        · rw [b2, c2]
        · rw [b1] at c1; simp at c1
        · rw [b1] at c1; simp at c1
        · rw [b1] at c1; cases c1
          exact stepServes_unique c2 b2
      subst this
      exact ⟨e, (k2.mem e).2 ⟨fl, (he e fl).2 k4, k5⟩, by rw [h.stem, h.post]⟩
  · constructor
    · intro k; simp at k
    · rintro ⟨y, e, fl, _, _, ay, _⟩
      exact absurd ((altFor_iff hz h mtab all fx y).2 ay) (k1 y)

theorem formsOf_nodup {D : RusDict} {a : RusArticle} {fx : FlexInfo} {fs : List (List Byte)} (hF : D.FormsOf a fx fs) : fs.Nodup := by
  rcases hF with ⟨x, es, k1, k2, rfl⟩ | ⟨k1, rfl⟩
  · rw [List.Nodup, List.pairwise_map]
    refine k2.order.imp fun {p q} hpq he => ?_
    have : p = q := by simpa using he
    subst this
    rw [bytesLt_irrefl] at hpq
    simp at hpq
  · exact List.nodup_nil

theorem pluralOnly_iff (info : Nat) : Spec.PluralOnly info ↔ info &&& 0x40 ≠ 0 := by
  rw [Spec.PluralOnly, show (0x40 : Nat) = 2 ^ 6 from rfl, Nat.and_two_pow, Nat.testBit_eq_decide_div_mod_eq, show (2 : Nat) ^ 6 = 64 from rfl]
  by_cases hc : info / 64 % 2 = 1 <;> simp [hc]

theorem dictRequest_eq (info : Nat) (g : FlexInfo) {dwsets : Nat} (hd : dwsets &&& 0x100 = 0) : dictRequest info g dwsets = ⟨dictGram info, 3⟩ := by
  rw [dictRequest, dictGram]
  by_cases hv : VerbPos info
  · rw [if_pos hv, if_pos (show info % 64 ≤ 6 from hv), if_neg (by simp [hd])]; rfl
  · rw [if_neg hv, if_neg (show ¬ info % 64 ≤ 6 from hv)]
    by_cases ha : AdjPos info
    · rw [if_pos ha, if_pos (show info % 64 ∈ _ from ha)]
      by_cases hp : Spec.PluralOnly info
      · rw [if_pos hp, if_pos ((pluralOnly_iff info).1 hp)]
      · rw [if_neg hp, if_neg (by rw [← pluralOnly_iff]; exact hp)]; rfl
    · rw [if_neg ha, if_neg (show ¬ info % 64 ∈ _ from ha)]
      by_cases hp : Spec.PluralOnly info
      · rw [if_pos hp, if_pos ((pluralOnly_iff info).1 hp)]; rfl
      · rw [if_neg hp, if_neg (by rw [← pluralOnly_iff]; exact hp)]; rfl

theorem reflects_iff (info : Nat) : (VerbPos info ∨ AdjPos info) ↔ SrcReflects info := Iff.rfl

/-- The dictionary forms of an article are what the source says. -/
theorem dictForms_mem {Z : RusSrc} {T : RusTabs} (hz : TablesFit Z) (hc : Compiled Z T) {A : SrcArticle} {a : RusArticle} (h : Realizes Z T A a)
    {mtab : List Byte} {all : List RusArticle} {g : FlexInfo} {dwsets : Nat} (hd : dwsets &&& 0x100 = 0) {fs : List (List Byte)}
    (hF : ((pipeSource Z T).dict mtab all).DictForms a g dwsets fs) :
    fs ≠ [] ∧ fs.Nodup ∧ ∀ f, f ∈ fs ↔ SrcDictForm Z.flex A f := by
  rw [RusDict.DictForms] at hF
  rcases h.table with ⟨h1, h2, h3, h4⟩ | ⟨name, h1, h2, h3, h4⟩
  · rw [if_neg h3] at hF
    subst hF
    refine ⟨by simp, by simp, fun f => ?_⟩
    rw [List.mem_singleton, SrcDictForm, h1, h.stem, h.post]
    simp
  · rw [if_pos h3, dictRequest_eq _ _ hd, h.info] at hF
    obtain ⟨hne, hF⟩ := hF
    have hsrc : ∀ f, SrcDictForm Z.flex A f ↔ (SrcFormAt Z.flex A name (dictGram A.info) 3 f ∨
        (SrcReflects A.info ∧ (∀ f', ¬ SrcFormAt Z.flex A name (dictGram A.info) 3 f') ∧ SrcFormAt Z.flex A name (dictGram A.info + 0x8000) 3 f)) := by
      intro f
      rw [SrcDictForm, h1]
      simp
    rcases hF with hF | ⟨hcat, hF0, hF⟩
    · have hm := formsOf_mem hz hc h h1 h2 hF
      refine ⟨hne, formsOf_nodup hF, fun f => ?_⟩
      rw [hsrc, hm f]
      constructor
      · exact Or.inl
      · rintro (k | ⟨_, k, _⟩)
        · exact k
        · obtain ⟨f', hf'⟩ := List.exists_mem_of_ne_nil _ hne
          exact absurd ((hm f').1 hf') (k f')
    · have hm0 := formsOf_mem hz hc h h1 h2 hF0
      have hm := formsOf_mem hz hc h h1 h2 hF
      have hn : ∀ f', ¬ SrcFormAt Z.flex A name (dictGram A.info) 3 f' := fun f' k => by
        have := (hm0 f').2 k
        simp at this
      refine ⟨hne, formsOf_nodup hF, fun f => ?_⟩
      rw [hsrc, hm f]
      constructor
      · exact fun k => Or.inr ⟨hcat, hn, k⟩
      · rintro (k | ⟨_, _, k⟩)
        · exact absurd k (hn f)
        · exact k

/-- An article that has a dictionary form by the source has dictionary forms. -/
theorem dictForms_exists {Z : RusSrc} {T : RusTabs} (hz : TablesFit Z) (hc : Compiled Z T) {alphabet : List Byte} {A : SrcArticle} {a : RusArticle}
    (h : Realizes Z T A a) {mtab : List Byte} {all : List RusArticle} {st : RusState} (hok : RusOk alphabet ((pipeSource Z T).dict mtab all) st)
    (ha : a ∈ all) (g : FlexInfo) {dwsets : Nat} (hd : dwsets &&& 0x100 = 0) {f : List Byte} (hf : SrcDictForm Z.flex A f) :
    ∃ fs, ((pipeSource Z T).dict mtab all).DictForms a g dwsets fs := by
  rcases h.table with ⟨h1, h2, h3, h4⟩ | ⟨name, h1, h2, h3, h4⟩
  · exact ⟨_, by rw [RusDict.DictForms, if_neg h3]⟩
  · obtain ⟨f1, k1, -⟩ := rusWordForms_inflected hok ha h3 ⟨dictGram A.info, 3⟩
    obtain ⟨f2, k2, -⟩ := rusWordForms_inflected hok ha h3 ⟨dictGram A.info + 0x8000, 3⟩
    have m1 := formsOf_mem hz hc h h1 h2 k1
    have m2 := formsOf_mem hz hc h h1 h2 k2
    by_cases he : f1 = []
    · subst he
      rcases hf with ⟨hf, _⟩ | ⟨name', hf, hf1 | ⟨hf2, _, hf3⟩⟩
      · rw [h1] at hf; simp at hf
      · rw [h1] at hf; cases hf
        have := (m1 f).2 hf1
        simp at this
      · rw [h1] at hf; cases hf
        refine ⟨f2, ?_⟩
        rw [RusDict.DictForms, if_pos h3, dictRequest_eq _ _ hd, h.info]
        exact ⟨List.ne_nil_of_mem ((m2 f).2 hf3), Or.inr ⟨hf2, k1, k2⟩⟩
    · refine ⟨f1, ?_⟩
      rw [RusDict.DictForms, if_pos h3, dictRequest_eq _ _ hd, h.info]
      exact ⟨he, Or.inl k1⟩

/-- The dictionary form that is reported. -/
theorem leastForm_lemma {Z : RusSrc} {T : RusTabs} (hz : TablesFit Z) (hc : Compiled Z T) {A : SrcArticle} {a : RusArticle} (h : Realizes Z T A a)
    {mtab : List Byte} {all : List RusArticle} {g : FlexInfo} {dwsets : Nat} (hd : dwsets &&& 0x100 = 0) {fs : List (List Byte)}
    (hF : ((pipeSource Z T).dict mtab all).DictForms a g dwsets fs) : SrcLemma Z.flex A (leastForm fs) := by
  obtain ⟨h1, _, h3⟩ := dictForms_mem hz hc h hd hF
  obtain ⟨h4, h5⟩ := C44_least fs h1
  exact ⟨(h3 _).1 h4, fun f' hf' => h5 f' ((h3 f').2 hf')⟩

theorem srcLemma_unique {src : List (List Byte × List FxItem)} {A : SrcArticle} {f f' : List Byte} (h : SrcLemma src A f) (h' : SrcLemma src A f') : f = f' := by
  exact bytesLt_total (h'.2 _ h.1) (h.2 _ h'.1)

end Libmorph
