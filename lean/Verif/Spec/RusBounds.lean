import Verif.Spec.Russian
/-
When the first-letter bounds of an article can be trusted.
-/
namespace Libmorph
open Libmorph.Spec

/-- The compact table `u` can be reached from the table `t` by references. -/
inductive Reach (ftab : List Byte) (t : Nat) : Nat → Prop where
  | here : Reach ftab t t
  | next {u : Nat} {i : CItem} : Reach ftab t u → InTable ftab u i → i.next ≠ 0 → Reach ftab t i.next

/-- A table the bounds are computed rightly for: every table in it has fewer than 128 elements, and an
element with no letters of its own either stands for itself or refers to another table, not both. -/
def SaneTable (ftab : List Byte) (t : Nat) : Prop :=
  ∀ u, Reach ftab t u → (∀ n p, getbyte (ftab.drop (u <<< 1)) = some (n, p) → n < 128) ∧
    ∀ i, InTable ftab u i → i.flex = [] → i.flags &&& 0x80 = 0 → i.next = 0

/-- The letters the bounds of a compact table are computed from: the first letter of an element; 0 for an element without letters
that need not go on; for one without letters that must go on, those of the table it goes on with. -/
inductive Counted (ftab : List Byte) : Nat → Nat → Prop where
  | letter {t : Nat} {i : CItem} {c : Nat} {s : List Byte} : InTable ftab t i → i.flex = c :: s → Counted ftab t c
  | blank {t : Nat} {i : CItem} : InTable ftab t i → i.flex = [] → i.flags &&& 0x80 = 0 → Counted ftab t 0
  | onward {t : Nat} {i : CItem} {c : Nat} : InTable ftab t i → i.flex = [] → i.flags &&& 0x80 ≠ 0 → Counted ftab i.next c → Counted ftab t c

/-- The compact table `u` can be reached from the table `t` by elements without letters that must go on. -/
inductive Onward (ftab : List Byte) (t : Nat) : Nat → Prop where
  | here : Onward ftab t t
  | next {u : Nat} {i : CItem} : Onward ftab t u → InTable ftab u i → i.flex = [] → i.flags &&& 0x80 ≠ 0 → Onward ftab t i.next

/-- The tables the bounds are computed from have between one and 127 elements. -/
def FewElements (ftab : List Byte) (t : Nat) : Prop :=
  ∀ u, Onward ftab t u → (∀ n p, getbyte (ftab.drop (u <<< 1)) = some (n, p) → n < 128) ∧ ∃ i, InTable ftab u i

/-- The letters below which the bounds reject everything: the first letters of the alternants, if none is empty; else those of the
table. -/
def RusDict.Low (D : RusDict) (a : RusArticle) (c : Nat) : Prop :=
  (a.mtoffs ≠ 0 ∧ (∀ p ∈ D.alts a.mtoffs, p.1 ≠ []) ∧ ∃ p ∈ D.alts a.mtoffs, p.1.head? = some c) ∨
  ((a.mtoffs = 0 ∨ ∃ p ∈ D.alts a.mtoffs, p.1 = []) ∧ Counted D.ftab a.tfoffs c)

/-- The letters above which the bounds reject everything: the first letters of the alternants, if one is not empty; else those of the
table. -/
def RusDict.High (D : RusDict) (a : RusArticle) (c : Nat) : Prop :=
  (a.mtoffs ≠ 0 ∧ ∃ p ∈ D.alts a.mtoffs, p.1.head? = some c) ∨
  ((a.mtoffs = 0 ∨ ∀ p ∈ D.alts a.mtoffs, p.1 = []) ∧ Counted D.ftab a.tfoffs c)

/-- An alternation the bounds are computed rightly for: the alternants are all empty or all non-empty. -/
def SaneAlts (alts : List (List Byte × Nat)) : Prop := (∀ p ∈ alts, p.1 = []) ∨ ∀ p ∈ alts, p.1 ≠ []

end Libmorph
