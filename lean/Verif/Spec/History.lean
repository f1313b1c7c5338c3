import Verif.Spec.Trie
/-
Histories of insertions into a construction tree and the map they denote.
-/
namespace Libmorph

/-- Run a history of insertions (string, update of the element stored there) on an empty tree. -/
def runHist {α : Type} (h : List (List Byte × (Option α → α))) : Tree α :=
  h.foldl (fun t p => t.insert p.2 p.1) Tree.empty

/-- What a map would hold under `k` after the same history: the updates addressed to `k`, in order,
starting from "absent". -/
def histFind {α : Type} (h : List (List Byte × (Option α → α))) (k : List Byte) : Option α :=
  (h.filter fun p => p.1 = k).foldl (fun o p => some (p.2 o)) none

end Libmorph
