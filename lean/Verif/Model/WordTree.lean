import Verif.Model.Bytes
/-
The construction tree of the dictionary compiler: tools/wordtree.h.
-/
namespace Libmorph

/-- The vector `nested` of child nodes of `wordtree` (tools/wordtree.h:86-92), written as a
first-child/next-sibling list: `cons ch val sub rest` is the child node with `chnode = ch`,
`p_data = val`, `nested = sub`, followed by the siblings `rest`.
Simplification: the cached field `length` is recomputed by `GetBufLen` (the compiler always calls
it on the finished tree before writing, tools/buildmorph.h:137, 155). -/
inductive Forest (α : Type) where
  | nil : Forest α
  | cons (ch : Byte) (val : Option α) (sub : Forest α) (rest : Forest α) : Forest α

/-- A `wordtree` node without its `chnode` (tools/wordtree.h:86-92). -/
structure Tree (α : Type) where
  val : Option α
  kids : Forest α

/-- A freshly constructed `wordtree` (tools/wordtree.h:94-95). -/
def Tree.empty {α : Type} : Tree α := ⟨none, .nil⟩

/-- tools/wordtree.h:114-123: find the child `c` in the (descending) sibling vector, creating it in
place when it is absent, and apply `f` to it. -/
def Forest.modify {α : Type} (c : Byte) (f : Tree α → Tree α) : Forest α → Forest α
  | .nil => let t := f Tree.empty; .cons c t.val t.kids .nil
  | .cons ch v sub rest =>
    if ch > c then .cons ch v sub (rest.modify c f)
    else if ch = c then let t := f ⟨v, sub⟩; .cons ch t.val t.kids rest
    else let t := f Tree.empty; .cons c t.val t.kids (.cons ch v sub rest)

/-- tools/wordtree.h:109-130 `wordtree::Insert`.  The C++ function returns a pointer to the element
of the node (creating the element when absent) and the caller updates it in place; here the update
is the argument `upd` (it receives `none` for a freshly created element). -/
def Tree.insert {α : Type} (upd : Option α → α) : List Byte → Tree α → Tree α
  | [], t => ⟨some (upd t.val), t.kids⟩
  | c :: cs, t => ⟨t.val, t.kids.modify c (Tree.insert upd cs)⟩

/-- `nested.size()` -/
def Forest.count {α : Type} : Forest α → Nat
  | .nil => 0
  | .cons _ _ _ rest => rest.count + 1

/-- The `counter` template parameter: `unsigned char` (stem and ending trees) or `unsigned short`
(lexeme id tree). -/
inductive Counter where
  | u8 | u16
deriving DecidableEq, Repr

/-- The value of the top bit, `upperFlags` (tools/wordtree.h:65-69, xmorph/scandict.h:65-68). -/
def Counter.top : Counter → Nat
  | .u8 => 0x80
  | .u16 => 0x8000

/-- `sizeof(counter)`, tools/wordtree.h:76. -/
def Counter.bytes : Counter → Nat
  | .u8 => 1
  | .u16 => 2

/-- tools/wordtree.h:48-81 `storecount::Serialize`: child count with the top bit telling whether the
node has a value, little endian. -/
def putcount (c : Counter) (n : Nat) (hasval : Bool) : List Byte :=
  let v := n ||| (if hasval then c.top else 0)
  match c with
  | .u8 => [v % 256]
  | .u16 => [v % 256, (v / 256) % 256]

/-- Serialized value of a node, if any (tools/wordtree.h:164-165, 179-180). -/
def optSer {α : Type} (sv : α → List Byte) : Option α → List Byte
  | none => []
  | some v => sv v

/-- tools/wordtree.h:152-168 `GetBufLen`, the summands of the children.  `vl` is `::GetBufLen` of
the element type. -/
def Forest.kidsLen {α : Type} (c : Counter) (vl : α → Nat) : Forest α → Nat
  | .nil => 0
  | .cons _ v sub rest =>
    let sublen := c.bytes + sub.kidsLen c vl + (match v with | none => 0 | some x => vl x)
    serialLen sublen + sublen + 1 + rest.kidsLen c vl

/-- tools/wordtree.h:152-168 `GetBufLen`. -/
def Tree.bufLen {α : Type} (c : Counter) (vl : α → Nat) (t : Tree α) : Nat :=
  c.bytes + t.kids.kidsLen c vl + (match t.val with | none => 0 | some x => vl x)

/-- tools/wordtree.h:176-177: the children, each as `chnode`, `length`, subtree. -/
def Forest.kidsSer {α : Type} (c : Counter) (sv : α → List Byte) (vl : α → Nat) : Forest α → List Byte
  | .nil => []
  | .cons ch v sub rest =>
    [ch % 256] ++ putserial ((Tree.mk v sub).bufLen c vl)
      ++ (putcount c sub.count v.isSome ++ sub.kidsSer c sv vl ++ optSer sv v)
      ++ rest.kidsSer c sv vl

/-- tools/wordtree.h:170-183 `Serialize`. -/
def Tree.ser {α : Type} (c : Counter) (sv : α → List Byte) (vl : α → Nat) (t : Tree α) : List Byte :=
  putcount c t.kids.count t.val.isSome ++ t.kids.kidsSer c sv vl ++ optSer sv t.val

/-- tools/wordtree.h:185-201 `Enumerate`: the calls `action( value, offset )` in order.
`off` is the offset of the first byte after the node's counter. -/
def Forest.enumKids {α : Type} (c : Counter) (vl : α → Nat) : Forest α → Nat → List (α × Nat) × Nat
  | .nil, off => ([], off)
  | .cons _ v sub rest, off =>
    let off1 := off + 1 + serialLen ((Tree.mk v sub).bufLen c vl) + c.bytes
    let (l1, off2) := sub.enumKids c vl off1
    let (l2, off3) := match v with
      | none => ([], off2)
      | some x => ([(x, off2)], off2 + vl x)
    let (l3, off4) := rest.enumKids c vl off3
    (l1 ++ l2 ++ l3, off4)

/-- tools/wordtree.h:185-201 `Enumerate( action, 0 )` on the root. -/
def Tree.enumerate {α : Type} (c : Counter) (vl : α → Nat) (t : Tree α) : List (α × Nat) :=
  let (l1, off) := t.kids.enumKids c vl c.bytes
  l1 ++ (match t.val with | none => [] | some x => [(x, off)])

end Libmorph
