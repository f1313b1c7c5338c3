import Verif.Lemmas.RusBounds
import Verif.Model.RusRun
/-
C45: the first-letter bounds of a Russian article admit every form of it.
-/
namespace Libmorph
open Libmorph.Spec

/-- The full statement: whatever the tables, the bounds cover all the forms. -/
def C45_full : Prop := ∀ (D : RusDict) (a : RusArticle), a.pos < 48 → (a.mtoffs ≠ 0 → MixOk (D.alts a.mtoffs) ∧
    (∀ p ∈ D.alts a.mtoffs, ∀ b ∈ p.1, 0 < b ∧ b < 256) ∧
    ∃ rest, D.mtab.drop a.mtoffs = mixSer (mixOf (D.alts a.mtoffs)) ++ rest) → D.Covered a

/-- **C45** for tables whose elements without letters stand for themselves or refer on, not both, with fewer
than 128 elements, and for alternations that are not empty for some forms only.  Missing: the other tables,
for which the statement is false (`C45_mixed_alternation`, `C45_empty_element`). -/
theorem C45_bounds_cover_partial (D : RusDict) (a : RusArticle) (hpos : a.Inflected → a.pos < 48)
    (htab : a.Inflected → SaneTable D.ftab a.tfoffs)
    (hmix : a.Inflected → a.mtoffs ≠ 0 → SaneAlts (D.alts a.mtoffs) ∧ MixOk (D.alts a.mtoffs) ∧
      (∀ p ∈ D.alts a.mtoffs, ∀ b ∈ p.1, 0 < b ∧ b < 256) ∧
      ∃ rest, D.mtab.drop a.mtoffs = mixSer (mixOf (D.alts a.mtoffs)) ++ rest) : D.Covered a := by
  intro lo hi hb x e g hr b hhead
  by_cases hinf : a.Inflected
  · simp only [RusDict.Reads, if_pos hinf] at hr
    obtain ⟨he, -, hx⟩ := hr
    have hnot : ¬ (a.tfoffs = 0 ∨ a.wdinfo &&& 0x3f ≥ 48) := by
      have := hpos hinf
      rw [show (0x3f : Nat) = 2 ^ 6 - 1 by rfl, Nat.and_two_pow_sub_one_eq_mod]
      rintro (h | h)
      · exact hinf.1 h
      · simp only [RusArticle.pos] at this; omega
    simp only [rusBounds, if_neg hnot, bind, Option.bind_eq_some_iff, pure] at hb
    obtain ⟨⟨lo0, hi0⟩, hmm, hb⟩ := hb
    have hend : ∀ c, e.head? = some c → lo0 ≤ c ∧ c ≤ hi0 := minMaxChar_covers _ (htab hinf) hmm he
    by_cases hmt : a.mtoffs = 0
    · rw [if_pos hmt] at hx
      simp only [if_pos hmt, Option.some.injEq, Prod.mk.injEq] at hb
      obtain ⟨rfl, rfl⟩ := hb
      rw [hx, List.nil_append] at hhead
      exact hend b hhead
    · rw [if_neg hmt] at hx
      simp only [if_neg hmt] at hb
      obtain ⟨h1, h2, h3, rest, h4⟩ := hmix hinf hmt
      rw [h4] at hb
      have hxk : ∃ k, (x, k) ∈ D.alts a.mtoffs := by
        rcases hx with hx | hx
        · exact ⟨_, hx⟩
        · exact ⟨_, hx.1⟩
      rcases mixBounds_covers h2 h1 h3 rest hb x hxk with ⟨rfl, rfl, rfl⟩ | ⟨c, hc, h5⟩
      · rw [List.nil_append] at hhead
        exact hend b hhead
      · cases x with
        | nil => simp at hc
        | cons y x =>
          simp only [List.cons_append, List.head?_cons, Option.some.injEq] at hhead hc
          omega
  · simp only [RusDict.Reads, if_neg hinf] at hr
    obtain ⟨rfl, rfl, -⟩ := hr
    simp at hhead

/-- **C45**, the bounds exactly: the lower bound is the least of the letters that count for it, the upper the greatest of those that
count for it.  These are the first letters of the alternants, unless one is empty (for the lower bound) or all are (for the upper);
then, and without an alternation, those of the table. -/
theorem C45_exact (D : RusDict) (a : RusArticle) (hinf : a.Inflected) (hpos : a.pos < 48) (htab : FewElements D.ftab a.tfoffs)
    (hmix : a.mtoffs ≠ 0 → MixOk (D.alts a.mtoffs) ∧ D.alts a.mtoffs ≠ [] ∧
      (∀ p ∈ D.alts a.mtoffs, ∀ b ∈ p.1, 0 < b ∧ b < 256) ∧
      ∃ rest, D.mtab.drop a.mtoffs = mixSer (mixOf (D.alts a.mtoffs)) ++ rest) (lo hi : Nat)
    (hb : rusBounds D.ftab D.mtab a = some (lo, hi)) :
    (D.Low a lo ∧ ∀ c, D.Low a c → lo ≤ c) ∧ (D.High a hi ∧ ∀ c, D.High a c → c ≤ hi) := by
  have hnot : ¬ (a.tfoffs = 0 ∨ a.wdinfo &&& 0x3f ≥ 48) := by
    rw [show (0x3f : Nat) = 2 ^ 6 - 1 by rfl, Nat.and_two_pow_sub_one_eq_mod]
    rintro (h | h)
    · exact hinf.1 h
    · simp only [RusArticle.pos] at hpos; omega
  simp only [rusBounds, if_neg hnot, bind, Option.bind_eq_some_iff, pure] at hb
  obtain ⟨⟨lo0, hi0⟩, hmm, hb⟩ := hb
  obtain ⟨k1, k2, k3⟩ := minMaxChar_exact _ htab hmm
  by_cases hmt : a.mtoffs = 0
  · simp only [if_pos hmt, Option.some.injEq, Prod.mk.injEq] at hb
    obtain ⟨rfl, rfl⟩ := hb
    refine ⟨⟨Or.inr ⟨Or.inl hmt, k1⟩, ?_⟩, Or.inr ⟨Or.inl hmt, k2⟩, ?_⟩
    · rintro c (⟨h, -⟩ | ⟨-, h⟩)
      · exact absurd hmt h
      · exact (k3 c h).1
    · rintro c (⟨h, -⟩ | ⟨-, h⟩)
      · exact absurd hmt h
      · exact (k3 c h).2
  · simp only [if_neg hmt] at hb
    obtain ⟨h1, h2, h3, rest, h4⟩ := hmix hmt
    rw [h4] at hb
    obtain ⟨m1, m2, m3, m4⟩ := mixBounds_exact h1 h2 h3 rest hb
    constructor
    · by_cases he : ∃ p ∈ D.alts a.mtoffs, p.1 = []
      · have := m1 he
        subst this
        refine ⟨Or.inr ⟨Or.inr he, k1⟩, ?_⟩
        rintro c (⟨-, h, -⟩ | ⟨-, h⟩)
        · obtain ⟨p, hp, e⟩ := he
          exact absurd e (h p hp)
        · exact (k3 c h).1
      · have he' : ∀ p ∈ D.alts a.mtoffs, p.1 ≠ [] := fun p hp e => he ⟨p, hp, e⟩
        obtain ⟨e1, e2⟩ := m2 he'
        refine ⟨Or.inl ⟨hmt, he', e1⟩, ?_⟩
        rintro c (⟨-, -, p, hp, h⟩ | ⟨h | h, -⟩)
        · exact e2 p hp c h
        · exact absurd h hmt
        · exact absurd h he
    · by_cases he : ∃ p ∈ D.alts a.mtoffs, p.1 ≠ []
      · obtain ⟨e1, e2⟩ := m4 he
        refine ⟨Or.inl ⟨hmt, e1⟩, ?_⟩
        rintro c (⟨-, p, hp, h⟩ | ⟨h | h, -⟩)
        · exact e2 p hp c h
        · exact absurd h hmt
        · obtain ⟨p, hp, e⟩ := he
          exact absurd (h p hp) e
      · have he' : ∀ p ∈ D.alts a.mtoffs, p.1 = [] := by
          intro p hp
          by_cases e : p.1 = []
          · exact e
          · exact absurd ⟨p, hp, e⟩ he
        have := m3 he'
        subst this
        refine ⟨Or.inr ⟨Or.inr he', k2⟩, ?_⟩
        rintro c (⟨-, p, hp, h⟩ | ⟨-, h⟩)
        · rw [he' p hp] at h; cases h
        · exact (k3 c h).2

/-- **C45**, exactly when the bounds are right: the first letter of whatever may follow the stem is not below all the letters that
count for the lower bound, nor above all those that count for the upper. -/
theorem C45_covered_iff (D : RusDict) (a : RusArticle) (hinf : a.Inflected) (hpos : a.pos < 48) (htab : FewElements D.ftab a.tfoffs)
    (hmix : a.mtoffs ≠ 0 → MixOk (D.alts a.mtoffs) ∧ D.alts a.mtoffs ≠ [] ∧
      (∀ p ∈ D.alts a.mtoffs, ∀ b ∈ p.1, 0 < b ∧ b < 256) ∧
      ∃ rest, D.mtab.drop a.mtoffs = mixSer (mixOf (D.alts a.mtoffs)) ++ rest)
    (hb : rusBounds D.ftab D.mtab a ≠ none) :
    D.Covered a ↔ ∀ x e g, D.Reads a x e g → ∀ b, (x ++ e).head? = some b →
      (∃ c, D.Low a c ∧ c ≤ b) ∧ ∃ c, D.High a c ∧ b ≤ c := by
  constructor
  · intro hc x e g hr b hh
    obtain ⟨⟨lo, hi⟩, hb⟩ := Option.ne_none_iff_exists'.1 hb
    obtain ⟨⟨h1, -⟩, h2, -⟩ := C45_exact D a hinf hpos htab hmix lo hi hb
    have := hc lo hi hb x e g hr b hh
    exact ⟨⟨lo, h1, this.1⟩, hi, h2, this.2⟩
  · intro hc lo hi hb x e g hr b hh
    obtain ⟨⟨-, h1⟩, -, h2⟩ := C45_exact D a hinf hpos htab hmix lo hi hb
    obtain ⟨⟨c, hl, hle⟩, c', hh', hle'⟩ := hc x e g hr b hh
    have := h1 c hl
    have := h2 c' hh'
    omega

/-- **C45**, when the bounds are right, for any tables of fewer than 128 elements. -/
theorem covered_of (D : RusDict) (a : RusArticle) (hinf : a.Inflected) (hpos : a.pos < 48)
    (htab : ∀ u, Onward D.ftab a.tfoffs u → ∀ n p, getbyte (D.ftab.drop (u <<< 1)) = some (n, p) → n < 128)
    (hmix : a.mtoffs ≠ 0 → MixOk (D.alts a.mtoffs) ∧ (∀ p ∈ D.alts a.mtoffs, ∀ b ∈ p.1, 0 < b ∧ b < 256) ∧
      ∃ rest, D.mtab.drop a.mtoffs = mixSer (mixOf (D.alts a.mtoffs)) ++ rest)
    (h : ∀ x e g, D.Reads a x e g → ∀ b, (x ++ e).head? = some b → (∃ c, D.Low a c ∧ c ≤ b) ∧ ∃ c, D.High a c ∧ b ≤ c) : D.Covered a := by
  intro lo hi hb x e g hr b hhead
  obtain ⟨⟨c, hl, hle⟩, c', hh, hle'⟩ := h x e g hr b hhead
  have hnot : ¬ (a.tfoffs = 0 ∨ a.wdinfo &&& 0x3f ≥ 48) := by
    rw [show (0x3f : Nat) = 2 ^ 6 - 1 by rfl, Nat.and_two_pow_sub_one_eq_mod]
    rintro (h | h)
    · exact hinf.1 h
    · simp only [RusArticle.pos] at hpos; omega
  simp only [rusBounds, if_neg hnot, bind, Option.bind_eq_some_iff, pure] at hb
  obtain ⟨⟨lo0, hi0⟩, hmm, hb⟩ := hb
  have k := minMaxChar_counted _ htab hmm
  by_cases hmt : a.mtoffs = 0
  · simp only [if_pos hmt, Option.some.injEq, Prod.mk.injEq] at hb
    obtain ⟨rfl, rfl⟩ := hb
    constructor
    · rcases hl with ⟨h, -⟩ | ⟨-, h⟩
      · exact absurd hmt h
      · have := k c h; omega
    · rcases hh with ⟨h, -⟩ | ⟨-, h⟩
      · exact absurd hmt h
      · have := k c' h; omega
  · simp only [if_neg hmt] at hb
    obtain ⟨h1, h3, rest, h4⟩ := hmix hmt
    have hne : D.alts a.mtoffs ≠ [] := by
      intro e0
      simp only [RusDict.Reads, if_pos hinf, RusDict.Inflects, if_neg hmt, Serves, e0] at hr
      simp at hr
    rw [h4] at hb
    obtain ⟨m1, m2, m3, m4⟩ := mixBounds_exact h1 hne h3 rest hb
    constructor
    · rcases hl with ⟨-, k1, p, hp, k2⟩ | ⟨k1 | k1, k2⟩
      · have := (m2 k1).2 p hp c k2; omega
      · exact absurd k1 hmt
      · rw [m1 k1]; have := k c k2; omega
    · rcases hh with ⟨-, p, hp, k2⟩ | ⟨k1 | k1, k2⟩
      · have := (m4 ⟨p, hp, by intro e0; rw [e0] at k2; cases k2⟩).2 p hp c' k2; omega
      · exact absurd k1 hmt
      · rw [m3 k1]; have := k c' k2; omega

/-- The tables of a concrete dictionary: closed under references, checked one by one. -/
theorem saneTable_of {ftab : List Byte} (T : List Nat) (t : Nat) (ht : t ∈ T)
    (hc : ∀ u ∈ T, ∀ i ∈ (compactTable ftab u).getD [], i.next ≠ 0 → i.next ∈ T)
    (hn : ∀ u ∈ T, ∀ q ∈ (getbyte (ftab.drop (u <<< 1))).toList, q.1 < 128)
    (hi : ∀ u ∈ T, ∀ i ∈ (compactTable ftab u).getD [], i.flex = [] → i.flags &&& 0x80 = 0 → i.next = 0) :
    SaneTable ftab t := by
  have hreach : ∀ u, Reach ftab t u → u ∈ T := by
    intro u hu
    induction hu with
    | here => exact ht
    | next _ hin hne ih =>
      obtain ⟨l, hl, him⟩ := hin
      exact hc _ ih _ (by rw [hl]; exact him) hne
  intro u hu
  refine ⟨fun n p hg => hn u (hreach u hu) (n, p) (by rw [hg]; simp), ?_⟩
  rintro i ⟨l, hl, him⟩ h1 h2
  exact hi u (hreach u hu) i (by rw [hl]; exact him) h1 h2

/-! ### Where the bounds are wrong -/

/-- A table with the endings "ы" (nominative) and "а" (genitive). -/
def c45Flex : List Byte := [0, 0, 2, 3, 0, 0, 1, 251, 3, 0, 0x10, 1, 224]

/-- A noun "т" + alternation "" / "е" + ending: "ты", "теа". -/
def c45Mix : RusDict :=
  ⟨c45Flex, 0 :: mixSer (mixOf [([], 0), ([229], 1)]), fun _ => [([], 0), ([229], 1)], [⟨[242], 7, 1, 1, [], 5⟩]⟩

/-- The statement is false of the code: with the alternants "" and "е" and the endings "ы" and "а" the bounds
are "а" to "е", and CheckWord rejects the form "ты" the tables give the article. -/
theorem C45_mixed_alternation : ¬ C45_full ∧
    (∃ a ∈ c45Mix.arts, c45Mix.HasForm a [242, 251]) ∧
    (rusBuild c45Mix.ftab c45Mix.mtab c45Mix.arts).bind (fun st => rusCheck (st.images c45Mix.mtab) [] [242, 251] 0)
      = some 0 ∧
    (rusBuild c45Mix.ftab c45Mix.mtab c45Mix.arts).bind (fun st => rusCheck (st.images c45Mix.mtab) [] [242, 229, 224] 0)
      = some 1 := by
  have hr : c45Mix.Reads ⟨[242], 7, 1, 1, [], 5⟩ [] [251] ⟨0, 3⟩ := by
    refine ⟨Ending.here (i := ⟨3, 0, [251], 0⟩) ⟨_, rfl, by decide⟩ (by decide), by decide, Or.inl ?_⟩
    decide
  refine ⟨?_, ⟨_, List.mem_singleton_self _, [], [251], ⟨0, 3⟩, hr, rfl⟩, by decide +kernel, by decide +kernel⟩
  intro hf
  have := hf c45Mix ⟨[242], 7, 1, 1, [], 5⟩ (by decide)
    (fun _ => ⟨⟨by decide, by decide, by decide⟩, by decide, [], by decide +kernel⟩) 224 229 (by decide +kernel) _ _ _ hr 251 rfl
  omega

/-- The same noun meets the hypotheses of the exact theorems: its bounds are "а", the least first letter of the endings, and "е", the
greatest of the alternants. -/
theorem C45_exact_example : rusBounds c45Mix.ftab c45Mix.mtab ⟨[242], 7, 1, 1, [], 5⟩ = some (224, 229) ∧
    FewElements c45Mix.ftab 1 ∧ c45Mix.Low ⟨[242], 7, 1, 1, [], 5⟩ 224 ∧ c45Mix.High ⟨[242], 7, 1, 1, [], 5⟩ 229 ∧
    ¬ c45Mix.Covered ⟨[242], 7, 1, 1, [], 5⟩ := by
  have hfew : FewElements c45Mix.ftab 1 := by
    have hon : ∀ u, Onward c45Mix.ftab 1 u → u = 1 := by
      intro u hu
      induction hu with
      | here => rfl
      | next h hin hf hm ih =>
        subst ih
        obtain ⟨l, hl, hi⟩ := hin
        have e : compactTable c45Mix.ftab 1 = some [⟨3, 0, [251], 0⟩, ⟨3, 0x1000, [224], 0⟩] := by decide +kernel
        rw [e] at hl; cases hl
        simp only [List.mem_cons, List.not_mem_nil, or_false] at hi
        rcases hi with rfl | rfl <;> cases hf
    intro u hu
    rw [hon u hu]
    refine ⟨?_, ⟨⟨3, 0, [251], 0⟩, _, (by decide +kernel : compactTable c45Mix.ftab 1 = some [⟨3, 0, [251], 0⟩, ⟨3, 0x1000, [224], 0⟩]), by decide⟩⟩
    intro n p h
    have e : getbyte (c45Mix.ftab.drop (1 <<< 1)) = some (2, c45Flex.drop 3) := by decide
    rw [e] at h; cases h; omega
  have hbd : rusBounds c45Mix.ftab c45Mix.mtab ⟨[242], 7, 1, 1, [], 5⟩ = some (224, 229) := by decide +kernel
  obtain ⟨⟨h1, -⟩, h2, -⟩ := C45_exact c45Mix ⟨[242], 7, 1, 1, [], 5⟩ (by decide) (by decide) hfew
    (fun _ => ⟨⟨by decide, by decide, by decide⟩, by decide, by decide, [], by decide +kernel⟩) 224 229 hbd
  refine ⟨hbd, hfew, h1, h2, ?_⟩
  intro hc
  have hr : c45Mix.Reads ⟨[242], 7, 1, 1, [], 5⟩ [] [251] ⟨0, 3⟩ := by
    refine ⟨Ending.here (i := ⟨3, 0, [251], 0⟩) ⟨_, rfl, by decide⟩ (by decide), by decide, Or.inl ?_⟩
    decide
  have := hc 224 229 hbd _ _ _ hr 251 rfl
  omega

/-- A table whose only element has no letters, stands for itself and refers on to a table with the
ending "а". -/
def c45Empty : RusDict :=
  ⟨[0, 0, 1, 0x43, 0, 0, 0, 5, 0, 0, 1, 3, 0, 0x10, 1, 224], [], fun _ => [], [⟨[242], 7, 1, 0, [], 5⟩]⟩

/-- The same for an element without letters that both stands for itself and refers on. -/
theorem C45_empty_element : ¬ C45_full ∧
    (∃ a ∈ c45Empty.arts, c45Empty.HasForm a [242, 224]) ∧
    (rusBuild c45Empty.ftab c45Empty.mtab c45Empty.arts).bind (fun st => rusCheck (st.images c45Empty.mtab) [] [242, 224] 0)
      = some 0 ∧
    (rusBuild c45Empty.ftab c45Empty.mtab c45Empty.arts).bind (fun st => rusCheck (st.images c45Empty.mtab) [] [242] 0)
      = some 1 := by
  have hr : c45Empty.Reads ⟨[242], 7, 1, 0, [], 5⟩ [] [224] ⟨0x1000, 3⟩ := by
    refine ⟨?_, by decide, rfl⟩
    exact Ending.next (i := ⟨0x43, 0, [], 5⟩) (w := [224]) (g := 0x1000) (fl := 3) ⟨_, rfl, by decide⟩ (by decide)
      (Ending.here (i := ⟨3, 0x1000, [224], 0⟩) ⟨_, rfl, by decide⟩ (by decide))
  refine ⟨?_, ⟨_, List.mem_singleton_self _, [], [224], ⟨0x1000, 3⟩, hr, rfl⟩, by decide +kernel, by decide +kernel⟩
  intro hf
  have := hf c45Empty ⟨[242], 7, 1, 0, [], 5⟩ (by decide) (fun h => absurd rfl h) 0 0 (by decide +kernel) _ _ _ hr 224 rfl
  omega

end Libmorph
