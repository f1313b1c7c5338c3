import Verif.Lemmas.RusResolve
/-
The lines of a Russian dictionary.
-/
namespace Libmorph
open Libmorph.Spec

/-- Whenever the compiler has an answer, it is right. -/
theorem resolve_sound {T : RusTabs} {S : RusSource} (hf : RusFit T S) {norm dies type ind comm : List Byte} (hd : Solid dies) {r : Option RusArticle}
    (h : resolveClassInfo T norm dies type ind comm = some r) (a : RusArticle) : r = some a ↔ ArticleIs S norm dies type ind comm a := by
  by_cases hs : SuffixFits norm comm
  · obtain ⟨r', h1, h2⟩ := resolve_iff (type := type) (ind := ind) hf hd hs
    rw [h, Option.some.injEq] at h1
    subst h1
    exact h2 a
  · rcases resolve_long (T := T) (dies := dies) (type := type) (ind := ind) hs with h' | h'
    · rw [h'] at h; simp at h
    · rw [h', Option.some.injEq] at h
      subst h
      constructor
      · intro h; simp at h
      · intro h; exact absurd (ArticleIs_suffix h) hs

theorem ArticleIs_unique {T : RusTabs} {S : RusSource} (hf : RusFit T S) {norm dies type ind comm : List Byte} (hd : Solid dies) {a a' : RusArticle}
    (h : ArticleIs S norm dies type ind comm a) (h' : ArticleIs S norm dies type ind comm a') : a = a' := by
  obtain ⟨r, _, h2⟩ := resolve_iff (type := type) (ind := ind) hf hd (ArticleIs_suffix h)
  have e1 := (h2 a).2 h
  have e2 := (h2 a').2 h'
  rw [e1] at e2
  exact Option.some.inj e2

theorem RusFields_solid {s n d t i c : List Byte} (h : RusFields s n d t i c) : Solid n ∧ Solid d ∧ Solid t ∧ Solid i := by
  obtain ⟨_, _, _, ⟨_, _, a, _⟩, ⟨_, _, b, _⟩, ⟨_, _, c, _⟩, ⟨_, _, d, _⟩⟩ := h
  exact ⟨a, b, c, d⟩

/-- The words of the text, as the compiler reads them. -/
theorem fields_read (s : List Byte) : ∃ n d t i c, RusFields s n d t i c ∧ (∃ r1 r2 r3,
    (n.length < 256 → getSubtext 0x100 s = some (n, r1)) ∧ (¬ n.length < 256 → getSubtext 0x100 s = none) ∧
    (d.length < 32 → getSubtext 0x20 r1 = some (d, r2)) ∧ (¬ d.length < 32 → getSubtext 0x20 r1 = none) ∧
    (t.length < 32 → getSubtext 0x20 r2 = some (t, r3)) ∧ (¬ t.length < 32 → getSubtext 0x20 r2 = none) ∧
    (i.length < 32 → getSubtext 0x20 r3 = some (i, c)) ∧ (¬ i.length < 32 → getSubtext 0x20 r3 = none)) := by
  obtain ⟨n, d, t, i, c, h⟩ := RusFields_exists s
  refine ⟨n, d, t, i, c, h, ?_⟩
  obtain ⟨r1, r2, r3, h1, h2, h3, h4⟩ := h
  have key : ∀ m s w r, NextWord s w r → (w.length < m → getSubtext m s = some (w, r)) ∧ (¬ w.length < m → getSubtext m s = none) := by
    intro m s w r hw
    refine ⟨fun hl => (getSubtext_iff m s w r).2 ⟨hw, hl⟩, fun hl => ?_⟩
    cases hg : getSubtext m s with
    | none => rfl
    | some p =>
      obtain ⟨hw', hl'⟩ := (getSubtext_iff m s p.1 p.2).1 hg
      rw [(NextWord_unique hw hw').1] at hl
      exact absurd hl' hl
  exact ⟨r1, r2, r3, (key _ _ _ _ h1).1, (key _ _ _ _ h1).2, (key _ _ _ _ h2).1, (key _ _ _ _ h2).2, (key _ _ _ _ h3).1, (key _ _ _ _ h3).2,
    (key _ _ _ _ h4).1, (key _ _ _ _ h4).2⟩

/-- What follows the reading of the words. -/
def stemsOf (T : RusTabs) (norm dies type zindex comm : List Byte) : Option (List RusArticle) := do
  let whole ← resolveClassInfo T norm dies type zindex comm
  match whole with
  | some a => return [a]
  | none =>
    match strstrAt (litBytes "//") zindex with
    | none => return []
    | some (one, two) =>
      let a ← resolveClassInfo T norm dies type one comm
      let b ← resolveClassInfo T norm dies type (two.drop 2) comm
      return a.toList ++ b.toList

theorem buildStems_fields (T : RusTabs) (s : List Byte) : ∃ n d t i c, RusFields s n d t i c ∧
    buildStems T s = if n.length < 256 ∧ d.length < 32 ∧ t.length < 32 ∧ i.length < 32 then stemsOf T n d t i c else none := by
  obtain ⟨n, d, t, i, c, h, r1, r2, r3, a1, a2, b1, b2, c1, c2, d1, d2⟩ := fields_read s
  refine ⟨n, d, t, i, c, h, ?_⟩
  rw [buildStems]
  by_cases hn : n.length < 256
  · by_cases hd : d.length < 32
    · by_cases ht : t.length < 32
      · by_cases hi : i.length < 32
        · rw [if_pos ⟨hn, hd, ht, hi⟩]
          simp only [a1 hn, b1 hd, c1 ht, d1 hi, Option.bind_eq_bind, Option.bind_some]
          rfl
        · rw [if_neg (fun h => hi h.2.2.2)]
          simp only [a1 hn, b1 hd, c1 ht, d2 hi, Option.bind_eq_bind, Option.bind_some, Option.bind_none]
      · rw [if_neg (fun h => ht h.2.2.1)]
        simp only [a1 hn, b1 hd, c2 ht, Option.bind_eq_bind, Option.bind_some, Option.bind_none]
    · rw [if_neg (fun h => hd h.2.1)]
      simp only [a1 hn, b2 hd, Option.bind_eq_bind, Option.bind_some, Option.bind_none]
  · rw [if_neg (fun h => hn h.1)]
    simp only [a2 hn, Option.bind_eq_bind, Option.bind_none]

theorem toList_iff {P : RusArticle → Prop} {r : Option RusArticle} (h : ∀ a, r = some a ↔ P a) :
    (r.toList = [] ∧ ¬ ∃ a, P a) ∨ ∃ a, r.toList = [a] ∧ P a := by
  cases r with
  | none => exact Or.inl ⟨rfl, fun ⟨a, ha⟩ => by have := (h a).2 ha; simp at this⟩
  | some a => exact Or.inr ⟨a, rfl, (h a).1 rfl⟩

theorem slashes_lit : litBytes "//" = [47, 47] := by decide +kernel

/-- Whatever the compiler makes of a text is what it says. -/
theorem buildStems_sound {T : RusTabs} {S : RusSource} (hf : RusFit T S) {s : List Byte} {l : List RusArticle} (h : buildStems T s = some l) :
    TextIs S s l := by
  obtain ⟨n, d, t, i, c, hfd, e⟩ := buildStems_fields T s
  rw [e] at h
  split at h
  swap
  · simp at h
  refine ⟨n, d, t, i, c, hfd, ?_⟩
  have hsd := (RusFields_solid hfd).2.1
  rw [stemsOf] at h
  simp only [Option.bind_eq_bind, Option.bind_eq_some_iff] at h
  obtain ⟨r, hr, h⟩ := h
  have hk := resolve_sound hf hsd hr
  cases r with
  | some a =>
    simp only [Option.pure_def, Option.some.injEq] at h
    exact Or.inl ⟨a, h.symm, (hk a).1 rfl⟩
  | none =>
    have hno : ¬ ∃ a, ArticleIs S n d t i c a := fun ⟨a, ha⟩ => by have := (hk a).2 ha; simp at this
    refine Or.inr ⟨hno, ?_⟩
    rw [slashes_lit] at h
    cases hs : strstrAt [47, 47] i with
    | none =>
      rw [hs] at h
      simp only [Option.pure_def, Option.some.injEq] at h
      rw [strstrAt_none] at hs
      exact Or.inl ⟨h.symm, by rintro ⟨b, a, e⟩; exact hs b a e⟩
    | some p =>
      rw [hs] at h
      obtain ⟨one, two⟩ := p
      obtain ⟨y, rfl, hmk⟩ := (strstrAt_some _ _ _ _).1 hs
      simp only [Option.bind_eq_some_iff, Option.pure_def, Option.some.injEq] at h
      obtain ⟨ra, hra, rb, hrb, rfl⟩ := h
      rw [show List.drop 2 ([47, 47] ++ y) = y from rfl] at hrb
      exact Or.inr ⟨one, y, ra.toList, rb.toList, hmk, rfl, toList_iff (resolve_sound hf hsd hra), toList_iff (resolve_sound hf hsd hrb)⟩

theorem buildStems_total {T : RusTabs} {S : RusSource} (hf : RusFit T S) {s : List Byte} (hl : ∀ n d t i c, RusFields s n d t i c →
    n.length < 256 ∧ d.length < 32 ∧ t.length < 32 ∧ i.length < 32 ∧ SuffixFits n c) : ∃ l, buildStems T s = some l := by
  obtain ⟨n, d, t, i, c, hfd, e⟩ := buildStems_fields T s
  obtain ⟨l1, l2, l3, l4, l5⟩ := hl n d t i c hfd
  have hsd := (RusFields_solid hfd).2.1
  rw [e, if_pos ⟨l1, l2, l3, l4⟩, stemsOf]
  obtain ⟨r, hr, _⟩ := resolve_iff (type := t) (ind := i) hf hsd l5
  rw [hr]
  cases r with
  | some a => exact ⟨_, rfl⟩
  | none =>
    simp only [Option.bind_eq_bind, Option.bind_some]
    cases strstrAt (litBytes "//") i with
    | none => exact ⟨_, rfl⟩
    | some p =>
      obtain ⟨one, two⟩ := p
      obtain ⟨ra, hra, _⟩ := resolve_iff (type := t) (ind := one) hf hsd l5
      obtain ⟨rb, hrb, _⟩ := resolve_iff (type := t) (ind := two.drop 2) hf hsd l5
      simp only [hra, hrb, Option.bind_some]
      exact ⟨_, rfl⟩

theorem one_unique {P : RusArticle → Prop} (hu : ∀ a a', P a → P a' → a = a') {l l' : List RusArticle} (h : (l = [] ∧ ¬ ∃ a, P a) ∨ ∃ a, l = [a] ∧ P a)
    (h' : (l' = [] ∧ ¬ ∃ a, P a) ∨ ∃ a, l' = [a] ∧ P a) : l = l' := by
  rcases h with ⟨rfl, h⟩ | ⟨a, rfl, h⟩ <;> rcases h' with ⟨rfl, h'⟩ | ⟨a', rfl, h'⟩
  · rfl
  · exact absurd ⟨_, h'⟩ h
  · exact absurd ⟨_, h⟩ h'
  · rw [hu _ _ h h']

theorem TextIs_unique {T : RusTabs} {S : RusSource} (hf : RusFit T S) {s : List Byte} {l l' : List RusArticle} (h : TextIs S s l) (h' : TextIs S s l') :
    l = l' := by
  obtain ⟨n, d, t, i, c, hfd, h⟩ := h
  obtain ⟨n', d', t', i', c', hfd', h'⟩ := h'
  obtain ⟨rfl, rfl, rfl, rfl, rfl⟩ := RusFields_unique hfd hfd'
  have hsd := (RusFields_solid hfd).2.1
  rcases h with ⟨a, rfl, h⟩ | ⟨hno, h⟩ <;> rcases h' with ⟨a', rfl, h'⟩ | ⟨hno', h'⟩
  · rw [ArticleIs_unique hf hsd h h']
  · exact absurd ⟨a, h⟩ hno'
  · exact absurd ⟨a', h'⟩ hno
  · rcases h with ⟨rfl, h⟩ | ⟨x, y, l1, l2, h1, rfl, h2, h3⟩ <;> rcases h' with ⟨rfl, h'⟩ | ⟨x', y', l1', l2', h1', rfl, h2', h3'⟩
    · rfl
    · exact absurd ⟨_, _, h1'.1⟩ h
    · exact absurd ⟨_, _, h1.1⟩ h'
    · obtain ⟨rfl, rfl⟩ := FirstMark_unique h1 h1'
      rw [one_unique (fun _ _ => ArticleIs_unique hf hsd) h2 h2', one_unique (fun _ _ => ArticleIs_unique hf hsd) h3 h3']

/-! ### A line -/

/-- The articles and the unknown texts. -/
def RusLineResult.arts : RusLineResult → List RusArticle
  | .articles l => l
  | _ => []

def RusLineResult.unk : RusLineResult → List (List Byte)
  | .unknown t => [t]
  | _ => []

theorem rusLine_id (T : RusTabs) (s t : List Byte) (line : List Byte) (hs : trimLine line = s) (h0 : ¬ ∃ t, s = 47 :: 47 :: t) (ht : IdText s t) :
    rusLine T line = if lidNumber t = 0 then some .skip else
      (buildStems T s).map fun l => if l = [] then .unknown s else .articles (l.map fun a => { a with id := lidNumber t }) := by
  obtain ⟨b, c, hf, hc⟩ := ht
  rw [rusLine]
  simp only [hs, litBytes_lid]
  have hne : s ≠ [] := by
    rintro rfl
    have := congrArg List.length hf.1
    simp [lidMark] at this
  rw [if_neg hne, if_neg (fun hp => h0 ((comment_iff s).1 hp)), (strstrAt_some _ _ _ _).2 ⟨t, rfl, hf⟩]
  simp only [List.getLast?_append, List.getLast?_singleton, Option.some_or]
  rw [if_neg (by omega), show (lidMark ++ t).drop 4 = t from rfl]
  rfl

theorem rusLine_noId (T : RusTabs) (s : List Byte) (line : List Byte) (hs : trimLine line = s) (h0 : ¬ ∃ t, s = 47 :: 47 :: t) (ht : ¬ ∃ t, IdText s t) :
    rusLine T line = some .skip := by
  rw [rusLine]
  simp only [hs, litBytes_lid]
  by_cases hne : s = []
  · rw [if_pos hne]
  rw [if_neg hne, if_neg (fun hp => h0 ((comment_iff s).1 hp))]
  cases h : strstrAt lidMark s with
  | none => rfl
  | some q =>
    obtain ⟨b, f⟩ := q
    obtain ⟨a, rfl, hf⟩ := (strstrAt_some _ _ _ _).1 h
    simp only
    cases hb : b.getLast? with
    | none => rfl
    | some c =>
      simp only
      rw [if_pos]
      refine Classical.byContradiction fun hn => ht ⟨a, ?_⟩
      have hc : c = 9 ∨ c = 32 := by omega
      have hb' : b = b.dropLast ++ [c] := by
        cases b with
        | nil => simp at hb
        | cons x b =>
          rw [List.getLast?_eq_some_getLast (by simp)] at hb
          rw [← Option.some.inj hb, List.dropLast_append_getLast]
      exact ⟨b.dropLast, c, by rw [← hb']; exact hf, hc⟩

theorem rusLine_sound {T : RusTabs} {S : RusSource} (hf : RusFit T S) {line : List Byte} {r : RusLineResult} (h : rusLine T line = some r) :
    RusLineSays S lidNumber line r.arts r.unk := by
  have hs := (trimLine_iff line _).1 rfl
  refine ⟨trimLine line, hs, ?_⟩
  by_cases h0 : ∃ t, trimLine line = 47 :: 47 :: t
  · left
    have e : rusLine T line = some (.unknown (trimLine line)) := by
      rw [rusLine]
      simp only
      rw [if_neg (by obtain ⟨t, e⟩ := h0; rw [e]; simp), if_pos ((comment_iff _).2 h0)]
    rw [e] at h
    cases h
    exact ⟨h0, rfl, rfl⟩
  · right
    by_cases ht : ∃ t, IdText (trimLine line) t
    · obtain ⟨t, ht⟩ := ht
      rw [rusLine_id T _ t line rfl h0 ht] at h
      by_cases hz : lidNumber t = 0
      · rw [if_pos hz] at h
        cases h
        exact Or.inl ⟨h0, Or.inr (Or.inr ⟨t, ht, hz⟩), rfl, rfl⟩
      · rw [if_neg hz, Option.map_eq_some_iff] at h
        obtain ⟨l, hl, rfl⟩ := h
        right
        refine ⟨h0, t, l, ht, hz, buildStems_sound hf hl, ?_⟩
        by_cases hn : l = []
        · rw [if_pos hn]; exact Or.inl ⟨hn, rfl, rfl⟩
        · rw [if_neg hn]; exact Or.inr ⟨hn, rfl, rfl⟩
    · rw [rusLine_noId T _ line rfl h0 ht] at h
      cases h
      exact Or.inl ⟨h0, Or.inr (Or.inl ht), rfl, rfl⟩

theorem rusLine_total {T : RusTabs} {S : RusSource} (hf : RusFit T S) {line : List Byte} (hl : LineFits line) : ∃ r, rusLine T line = some r := by
  have hs := (trimLine_iff line _).1 rfl
  by_cases h0 : ∃ t, trimLine line = 47 :: 47 :: t
  · refine ⟨.unknown (trimLine line), ?_⟩
    rw [rusLine]
    simp only
    rw [if_neg (by obtain ⟨t, e⟩ := h0; rw [e]; simp), if_pos ((comment_iff _).2 h0)]
  · by_cases ht : ∃ t, IdText (trimLine line) t
    · obtain ⟨t, ht⟩ := ht
      rw [rusLine_id T _ t line rfl h0 ht]
      split
      · exact ⟨_, rfl⟩
      · obtain ⟨l, e⟩ := buildStems_total hf fun n d t i c h => hl _ n d t i c hs h
        rw [e]; exact ⟨_, rfl⟩
    · exact ⟨_, rusLine_noId T _ line rfl h0 ht⟩

theorem Trimmed_unique {line s s' : List Byte} (h : Trimmed line s) (h' : Trimmed line s') : s = s' := by
  rw [← trimLine_iff] at h h'; rw [← h, h']

theorem RusLineSays_unique {T : RusTabs} {S : RusSource} (hf : RusFit T S) {number : List Byte → Nat} {line : List Byte} {l l' : List RusArticle} {u u' : List (List Byte)}
    (h : RusLineSays S number line l u) (h' : RusLineSays S number line l' u') : l = l' ∧ u = u' := by
  obtain ⟨s, hs, h⟩ := h
  obtain ⟨s', hs', h'⟩ := h'
  obtain rfl := Trimmed_unique hs hs'
  have hmark : ∀ t, ¬ IdText [] t := by
    rintro t ⟨b, c, hf, _⟩
    have := congrArg List.length hf.1
    simp [lidMark] at this
  rcases h with ⟨hc, rfl, rfl⟩ | ⟨hc, hn, rfl, rfl⟩ | ⟨hc, t, l0, ht, hz, hx, h⟩ <;>
    rcases h' with ⟨hc', rfl, rfl⟩ | ⟨hc', hn', rfl, rfl⟩ | ⟨hc', t', l0', ht', hz', hx', h'⟩
  · exact ⟨rfl, rfl⟩
  · exact absurd hc hc'
  · exact absurd hc hc'
  · exact absurd hc' hc
  · exact ⟨rfl, rfl⟩
  · rcases hn with rfl | hn | ⟨t, ht, hz⟩
    · exact absurd ht' (hmark _)
    · exact absurd ⟨_, ht'⟩ hn
    · rw [IdText_unique ht ht'] at hz; exact absurd hz hz'
  · exact absurd hc' hc
  · rcases hn' with rfl | hn | ⟨t', ht', hz'⟩
    · exact absurd ht (hmark _)
    · exact absurd ⟨_, ht⟩ hn
    · rw [IdText_unique ht ht'] at hz; exact absurd hz' hz
  · obtain rfl := IdText_unique ht ht'
    obtain rfl := TextIs_unique hf hx hx'
    rcases h with ⟨a, rfl, rfl⟩ | ⟨a, rfl, rfl⟩ <;> rcases h' with ⟨a', rfl, rfl⟩ | ⟨a', rfl, rfl⟩
    · exact ⟨rfl, rfl⟩
    · exact absurd a a'
    · exact absurd a' a
    · exact ⟨rfl, rfl⟩

/-! ### The files -/

theorem rusRead_iff {T : RusTabs} {S : RusSource} (hf : RusFit T S) (ls : List (List Byte)) (hl : ∀ l ∈ ls, LineFits l) : ∀ st unk st' unk',
    rusRead T ls (st, unk) = some (st', unk') ↔ ∃ os : List (List RusArticle × List (List Byte)),
      List.Forall₂ (fun l o => RusLineSays S lidNumber l o.1 o.2) ls os ∧
      (os.map (·.1)).flatten.foldlM (RusState.resolve T.ftab T.mtab) st = some st' ∧ unk' = unk ++ (os.map (·.2)).flatten := by
  induction ls with
  | nil =>
    intro st unk st' unk'
    simp only [rusRead, Option.some.injEq, Prod.mk.injEq, List.forall₂_nil_left_iff, exists_eq_left, List.map_nil, List.flatten_nil, List.foldlM_nil,
      Option.pure_def, List.append_nil]
    exact ⟨fun ⟨a, b⟩ => ⟨a, b.symm⟩, fun ⟨a, b⟩ => ⟨a, b.symm⟩⟩
  | cons l ls ih =>
    intro st unk st' unk'
    obtain ⟨r, hr⟩ := rusLine_total hf (hl l (by simp))
    have hsay := rusLine_sound hf hr
    have step : rusRead T (l :: ls) (st, unk) = (r.arts.foldlM (RusState.resolve T.ftab T.mtab) st).bind fun st => rusRead T ls (st, unk ++ r.unk) := by
      rw [rusRead, hr]
      cases r <;> simp [RusLineResult.arts, RusLineResult.unk]
    rw [step, Option.bind_eq_some_iff]
    simp only [ih (fun l h => hl l (by simp [h]))]
    constructor
    · rintro ⟨st1, h1, os, h2, h3, h4⟩
      refine ⟨(r.arts, r.unk) :: os, .cons hsay h2, ?_, ?_⟩
      · simp only [List.map_cons, List.flatten_cons, List.foldlM_append, h1]
        exact h3
      · rw [h4]; simp
    · rintro ⟨os, h2, h3, h4⟩
      cases h2 with
      | cons ho h2 =>
        rename_i o os
        obtain ⟨e1, e2⟩ := RusLineSays_unique hf ho hsay
        simp only [List.map_cons, List.flatten_cons, List.foldlM_append, Option.bind_eq_bind, Option.bind_eq_some_iff] at h3
        obtain ⟨st1, h5, h6⟩ := h3
        rw [e1] at h5
        refine ⟨st1, h5, os, h2, h6, ?_⟩
        rw [h4, ← e2]; simp

end Libmorph
