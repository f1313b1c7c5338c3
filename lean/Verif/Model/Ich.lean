import Verif.Model.Tfc
/-
The compiler of alternation tables: lang-rus/libdict/tools/makeich/mtable.h, makeich.cpp; loading its index:
lang-rus/libdict/tools/buildic/mtables.cpp.
-/
namespace Libmorph

/-- A line of a source of alternation tables, makeich.cpp:120-146: the header of its table, the condition, the alternants by
steps. -/
structure IchLine where
  header : List Byte
  cond : List Byte
  steps : List (List Byte)
deriving DecidableEq, Repr

/-- makeich.cpp:134-143: `addstep( st, step )` for the steps 0, 1, 2, ... -/
def IchLine.mix (l : IchLine) : List Mix := l.steps.zipIdx.foldl (fun m p => addStep p.1 p.2 m) []

/-- `collector`, mtable.h:129-153. -/
structure IchSet where
  inter : List (List Mix) := []
  condi : List (List (List Byte × Nat)) := []
  index : List (List Byte × Nat) := []
deriving DecidableEq, Repr

/-- `collector::set_conditions`, mtable.h:240-259: the loop over the names; `cindex`: the set of conditions, if any yet;
`none`: an exception.  The names are those of `parse_tabindex`, mtable.h:282-305, the same loop as in tfc. -/
def IchSet.conditions (s : IchSet) (cindex : Option Nat) : List (List Byte) → Option (IchSet × Option Nat)
  | [] => some (s, cindex)
  | k :: ks =>
    match mapFind s.index k with
    | none =>
      match cindex with
      | none => IchSet.conditions { s with condi := s.condi ++ [[]], index := mapEmplace s.index k s.condi.length } (some s.condi.length) ks
      | some c => IchSet.conditions { s with index := mapEmplace s.index k c } (some c) ks
    | some g =>
      match cindex with
      | none => IchSet.conditions s (some g) ks
      | some c => if c ≠ g then none else IchSet.conditions s (some c) ks

/-- `collector::set_interchange`, mtable.h:267-280. -/
def IchSet.interchange (s : IchSet) (m : List Mix) : IchSet × Nat :=
  match s.inter.findIdx? (· = m) with
  | some n => (s, n)
  | none => ({ s with inter := s.inter ++ [m] }, s.inter.length)

/-- `collector::add_interchange`, mtable.h:136-141, 261-264. -/
def IchSet.add (s : IchSet) (l : IchLine) : Option IchSet :=
  match s.conditions none (tabNames l.header) with
  | none => none
  | some (_, none) => none
  | some (s, some c) =>
    let (s, n) := s.interchange l.mix
    some { s with condi := s.condi.modify c (· ++ [(l.cond, n)]) }

/-- `collector::relocate_tables`, mtable.h:224-231: offsets of 16 bits. -/
def ichOffsets : Nat → List (List Mix) → List Nat
  | _, [] => []
  | o, m :: ms => o :: ichOffsets ((o + mixLen m) % 65536) ms

/-- `StoreTab`, `StoreRef`, mtable.h:307-329, and `Alternator::Load`, mtables.cpp:40-90: the image, and the index as it is
loaded: for every name the references and their conditions.  Conditions of 16 bytes and more are not loaded.  The format of
the index file (external `mtc`) is not modelled. -/
def IchSet.store (s : IchSet) : Option (List Byte × List (List Byte × List (List Byte × Nat))) :=
  let offs := ichOffsets 6 s.inter
  if s.condi.any (fun c => c.any fun p => p.1.length ≥ 16) then none
  else do
    let tabs ← s.condi.mapM fun c => c.mapM fun p => offs[p.2]?.map (p.1, ·)
    let idx ← s.index.mapM fun p => tabs[p.2]?.map (p.1, ·)
    return ([105, 110, 116, 101, 114, 99] ++ (s.inter.map mixSer).flatten, idx)

/-- makeich.cpp:112-147, 220-262, the lines of the tables in order; `none`: an exception. -/
def ichCompile (src : List IchLine) : Option (List Byte × List (List Byte × List (List Byte × Nat))) :=
  (src.foldlM (fun (s : IchSet) l => s.add l) {}).bind IchSet.store

end Libmorph
