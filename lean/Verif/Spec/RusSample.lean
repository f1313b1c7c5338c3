import Verif.Props.C45
import Verif.Lemmas.RusTables
/-
A small Russian dictionary that meets all the limits: the hypotheses of the theorems are not vacuous.
-/
namespace Libmorph
open Libmorph.Spec

/-- Compact table 1 (masculine): "", "" (accusative), "а", "у", "ом", "е", "ы" and "а" + table 22;
table 22: "м", "ми", "х"; table 31: "ы", "" (genitive plural) and "а" + table 22. -/
def rusSampleFlex : List Byte := [0, 0,
  8, 3, 0, 0, 0, 3, 0, 0x30, 0, 3, 0, 0x10, 1, 224, 3, 0, 0x20, 1, 243, 3, 0, 0x40, 2, 238, 236, 3, 0, 0x50, 1, 229,
     3, 0, 0x08, 1, 251, 0x83, 0, 0x08, 1, 224, 22, 0,
  3, 3, 0, 0x20, 1, 236, 3, 0, 0x40, 2, 236, 232, 3, 0, 0x50, 1, 245,
  0, 3, 3, 0, 0x08, 1, 251, 3, 0, 0x18, 0, 0x83, 0, 0x08, 1, 224, 22, 0]

/-- The alternation of "сон": "он" (basic) and "н" (level 1). -/
def rusSampleAlts : List (List Byte × Nat) := [([238, 237], 0), ([237], 1)]

/-- "сон" (masculine, alternation), "сон-то", "Иван" (a name), "ножницы" (plural only), "там", the preposition "в". -/
def rusSample : RusDict where
  ftab := rusSampleFlex
  mtab := 0 :: mixSer (mixOf rusSampleAlts)
  alts := fun _ => rusSampleAlts
  arts := [
    ⟨[241], 7, 1, 1, [], 300⟩,
    ⟨[241], 7, 1, 1, [45, 242, 238], 44344⟩,
    ⟨[232, 226, 224, 237], 38, 1, 0, [], 7⟩,
    ⟨[237, 238, 230, 237, 232, 246], 24 + 0x40, 31, 0, [], 5⟩,
    ⟨[242, 224, 236], 54, 0, 0, [], 9⟩,
    ⟨[226], 51, 0x28, 0, [], 12⟩]

/-- Its letters. -/
def rusSampleLetters : List Byte := [224, 226, 230, 232, 236, 237, 238, 241, 242, 246]

/-- The letters of its endings. -/
def rusSampleEndLetters : List Byte := [224, 229, 232, 236, 238, 243, 245, 251]

theorem rusSample_builds : (rusBuild rusSample.ftab rusSample.mtab rusSample.arts).isSome = true := by decide +kernel

/-- What the compiler makes of it. -/
def rusSampleState : RusState := (rusBuild rusSample.ftab rusSample.mtab rusSample.arts).get rusSample_builds

theorem rusSample_flex : (∀ tf ∈ [1, 31], FlexOk rusSampleFlex rusSampleEndLetters tf) ∧
    (∀ tf ∈ [1, 31], ∀ e g fl, Ending rusSampleFlex tf e g fl → e.length ≤ 64) ∧
    (∀ tf ∈ [1, 31], SaneTable rusSampleFlex tf) := by
  refine ⟨?_, ?_, ?_⟩
  · intro tf htf
    simp only [List.mem_cons, List.not_mem_nil, or_false] at htf
    rcases htf with rfl | rfl
    · exact flexOk_of (d := 3) (l := (allEndings rusSampleFlex 3 1).get (by decide +kernel)) (by simp)
        (by decide) (by decide) (by decide) (by decide +kernel) (by decide +kernel)
    · exact flexOk_of (d := 3) (l := (allEndings rusSampleFlex 3 31).get (by decide +kernel)) (by simp)
        (by decide) (by decide) (by decide) (by decide +kernel) (by decide +kernel)
  · intro tf htf e g fl he
    simp only [List.mem_cons, List.not_mem_nil, or_false] at htf
    rcases htf with rfl | rfl
    · have h : ∀ p ∈ (allEndings rusSampleFlex 3 1).get (by decide +kernel), p.1.length ≤ 64 := by decide +kernel
      exact h _ (mem_allEndings he (d := 3) (by simp))
    · have h : ∀ p ∈ (allEndings rusSampleFlex 3 31).get (by decide +kernel), p.1.length ≤ 64 := by decide +kernel
      exact h _ (mem_allEndings he (d := 3) (by simp))
  · intro tf htf
    refine saneTable_of [1, 22, 31] tf ?_ (by decide +kernel) (by decide +kernel) (by decide +kernel)
    simp only [List.mem_cons, List.not_mem_nil, or_false] at htf ⊢
    rcases htf with rfl | rfl <;> simp

theorem rusSample_ok : RusOk rusSampleLetters rusSample rusSampleState where
  built := by simp [rusSampleState]
  alpha := by decide
  letters := by decide
  stems := by decide
  short := by decide
  ids := by decide
  posts := by decide
  text := by decide
  words := by decide
  prepos := by decide
  plainw := by decide
  refs := by decide
  tables := by
    intro a ha hinf
    have : ∀ a ∈ rusSample.arts, a.Inflected → a.tfoffs ∈ [1, 31] := by decide
    exact ⟨_, rusSample_flex.1 _ (this a ha hinf)⟩
  long := by
    intro a ha hinf
    have : ∀ a ∈ rusSample.arts, a.Inflected → a.tfoffs ∈ [1, 31] := by decide
    exact rusSample_flex.2.1 _ (this a ha hinf)
  mixes := by
    intro a ha hmt
    have : ∀ a ∈ rusSample.arts, a.mtoffs ≠ 0 → a.mtoffs = 1 := by decide
    rw [this a ha hmt]
    exact ⟨⟨by decide, by decide, by decide⟩, by decide, [], by decide +kernel⟩
  covers := by
    intro a ha
    have h1 : ∀ a ∈ rusSample.arts, a.Inflected → a.tfoffs ∈ [1, 31] ∧ a.pos < 48 := by decide
    have h2 : ∀ a ∈ rusSample.arts, a.mtoffs ≠ 0 → a.mtoffs = 1 := by decide
    refine C45_bounds_cover_partial rusSample a (fun h => (h1 a ha h).2) (fun h => rusSample_flex.2.2 _ (h1 a ha h).1) ?_
    intro hinf hmt
    rw [h2 a ha hmt]
    exact ⟨Or.inr (by decide), ⟨by decide, by decide, by decide⟩, by decide, [], by decide +kernel⟩
  count := by decide
  classes := by decide +kernel
  plain := by decide +kernel
  size := by decide +kernel

end Libmorph
