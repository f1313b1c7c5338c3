/-
What a comparison of two lists of lines is.  Nothing of the model is used.
-/
namespace Libmorph.Spec

/-- `all` is `common` and `extra` woven together: each in its order. -/
inductive Woven {α : Type} : List α → List α → List α → Prop where
  | nil : Woven [] [] []
  | common {c e a : List α} (x : α) : Woven c e a → Woven (x :: c) e (x :: a)
  | extra {c e a : List α} (x : α) : Woven c e a → Woven c (x :: e) (x :: a)

/-- Two different lines that stand in both lists stand in them in the same order. -/
def NoCross {α : Type} (l r : List α) : Prop := ∀ x y, x ≠ y → [x, y].Sublist l → ¬ [y, x].Sublist r

/-- Of the forms for each form number, the first. -/
def firstForms (F : Nat → List (List Nat)) : List (Nat × List Nat) := (List.range 256).filterMap fun f => (F f).head?.map fun s => (f, s)

/-- All forms begin with the same `n` letters. -/
def Alike (n : Nat) (m : List (Nat × List Nat)) : Prop := ∃ p : List Nat, p.length = n ∧ ∀ q ∈ m, p <+: q.2

/-- `c` are the forms `m`, all but the first without the letters all of them begin with. -/
def CutForms (m c : List (Nat × List Nat)) : Prop :=
  (m = [] ∧ c = []) ∨ ∃ p r n, m = p :: r ∧ Alike n m ∧ (∀ k, Alike k m → k ≤ n) ∧ c = p :: r.map fun q => (q.1, q.2.drop n)

end Libmorph.Spec
