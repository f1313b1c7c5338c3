/-
What the list of the unused lexeme numbers is.
-/
namespace Libmorph.Spec

/-- `n` is the smallest of the numbers. -/
def IsLeast (ids : List Nat) (n : Nat) : Prop := n ∈ ids ∧ ∀ m ∈ ids, n ≤ m

/-- `n` is the largest of the numbers. -/
def IsLargest (ids : List Nat) (n : Nat) : Prop := n ∈ ids ∧ ∀ m ∈ ids, m ≤ n

/-- The holes between two numbers: intervals, from left to right, with a used number between any two of them; a number
strictly between `least` and `largest` is unused exactly when it is in one of them. -/
structure HolesBetween (ids : List Nat) (least largest : Nat) (holes : List (Nat × Nat)) : Prop where
  inside : ∀ h ∈ holes, least < h.1 ∧ h.1 ≤ h.2 ∧ h.2 < largest
  apart : holes.Pairwise fun a b => ∃ n ∈ ids, a.2 < n ∧ n < b.1
  exact : ∀ n, least < n → n < largest → (n ∉ ids ↔ ∃ h ∈ holes, h.1 ≤ n ∧ n ≤ h.2)

/-- The numbers that occur again after their first occurrence, one after the other. -/
def repeats : List Nat → List Nat → List Nat
  | _, [] => []
  | seen, n :: ns => if n ∈ seen then n :: repeats seen ns else repeats (n :: seen) ns

end Libmorph.Spec
