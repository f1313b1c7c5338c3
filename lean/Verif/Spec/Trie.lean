import Verif.Model.WordTree
/-
Specification vocabulary for trees: what it means for a string to be stored in a tree, and which
stored strings are prefixes of a word.  Nothing here refers to the byte images.
-/
namespace Libmorph

/-- The child node reached by the character `c`. -/
def Forest.child {α : Type} (c : Byte) : Forest α → Option (Tree α)
  | .nil => none
  | .cons ch v sub rest => if ch = c then some ⟨v, sub⟩ else rest.child c

/-- The value stored under a string. -/
def Tree.find {α : Type} : List Byte → Tree α → Option α
  | [], t => t.val
  | c :: cs, t => match t.kids.child c with
    | none => none
    | some t' => Tree.find cs t'

/-- The characters of the direct children, in order. -/
def Forest.chars {α : Type} : Forest α → List Byte
  | .nil => []
  | .cons ch _ _ rest => ch :: rest.chars

/-- Siblings are in strictly descending order, at every level. -/
def Forest.Desc {α : Type} : Forest α → Prop
  | .nil => True
  | .cons ch _ sub rest => (∀ c ∈ rest.chars, c < ch) ∧ sub.Desc ∧ rest.Desc

/-- The values of the prefixes of `key` that are stored in the tree, the longest prefix first, each
with the part of `key` after the prefix. -/
def prefixHits {α : Type} (find : List Byte → Option α) (key : List Byte) : List (α × List Byte) :=
  (List.range (key.length + 1)).reverse.filterMap fun k =>
    (find (key.take k)).map fun v => (v, key.drop k)

/-- Run a callback over a list of visits; stop at the first one that reports a result. -/
def runHits {α β σ ρ : Type} (act : α → β → σ → Option (Option ρ × σ)) :
    List (α × β) → σ → Option (Option ρ × σ)
  | [], s => some (none, s)
  | (v, f) :: l, s =>
    match act v f s with
    | none => none
    | some (some r, s') => some (some r, s')
    | some (none, s') => runHits act l s'

/-- All values of the tree satisfy `P`. -/
def Forest.All {α : Type} (P : α → Prop) : Forest α → Prop
  | .nil => True
  | .cons _ v sub rest => (∀ x, v = some x → P x) ∧ sub.All P ∧ rest.All P

/-- All values of the tree satisfy `P`. -/
def Tree.All {α : Type} (P : α → Prop) (t : Tree α) : Prop :=
  (∀ x, t.val = some x → P x) ∧ t.kids.All P

/-- All node characters satisfy `Q`. -/
def Forest.AllCh {α : Type} (Q : Byte → Prop) : Forest α → Prop
  | .nil => True
  | .cons ch _ sub rest => Q ch ∧ sub.AllCh Q ∧ rest.AllCh Q

/-- No node has so many children that the child count runs into the value flag
(tools/wordtree.h:72 asserts it). -/
def Forest.CountOk {α : Type} (c : Counter) : Forest α → Prop
  | .nil => True
  | .cons _ _ sub rest => sub.count < c.top ∧ sub.CountOk c ∧ rest.CountOk c

/-- No node has so many children that the child count runs into the value flag. -/
def Tree.CountOk {α : Type} (c : Counter) (t : Tree α) : Prop :=
  t.kids.count < c.top ∧ t.kids.CountOk c

end Libmorph

namespace Libmorph

/-- All stored strings with their values, in the order in which the compiler and `GetTrack` list
them: children first (in sibling order), then the node itself. -/
def Forest.entries {α : Type} : Forest α → List (α × List Byte)
  | .nil => []
  | .cons ch v sub rest =>
    (sub.entries.map fun p => (p.1, ch :: p.2)) ++ (v.map fun x => (x, [ch])).toList ++ rest.entries

/-- All stored strings with their values. -/
def Tree.entries {α : Type} (t : Tree α) : List (α × List Byte) :=
  t.kids.entries ++ (t.val.map fun x => (x, [])).toList

/-- Length of the longest stored path. -/
def Forest.depth {α : Type} : Forest α → Nat
  | .nil => 0
  | .cons _ _ sub rest => max (sub.depth + 1) rest.depth

/-- `entries` with the position of each value in the image (the image of the forest's children
starts at `off`). -/
def Forest.placed {α : Type} (c : Counter) (vl : α → Nat) : Forest α → Nat → List (List Byte × α × Nat)
  | .nil, _ => []
  | .cons ch v sub rest, off =>
    let n := (Tree.mk v sub).bufLen c vl
    let o1 := off + 1 + serialLen n
    ((sub.placed c vl (o1 + c.bytes)).map fun p => (ch :: p.1, p.2))
      ++ (v.map fun x => ([ch], x, o1 + c.bytes + sub.kidsLen c vl)).toList
      ++ rest.placed c vl (o1 + n)

/-- `entries` of a tree with the position of each value in the image. -/
def Tree.placed {α : Type} (c : Counter) (vl : α → Nat) (t : Tree α) (off : Nat := 0) :
    List (List Byte × α × Nat) :=
  t.kids.placed c vl (off + c.bytes) ++ (t.val.map fun x => ([], x, off + c.bytes + t.kids.kidsLen c vl)).toList

end Libmorph
