import Verif.Model.Holder
/-
What "balanced references" means, independently of how the holders are written.
-/
namespace Libmorph

/-- How often object `o` was attached, by anybody. -/
def attaches (o : Nat) (log : List RefCall) : Nat := log.count (.attach o) + log.count (.factory o)

/-- How often object `o` was detached. -/
def detaches (o : Nat) (log : List RefCall) : Nat := log.count (.detach o)

/-- The reference count an object keeps: attached minus detached. -/
def refs (o : Nat) (log : List RefCall) : Int := (attaches o log : Int) - detaches o log

/-- How many live holders point to `o`. -/
def HolderState.held (s : HolderState) (o : Nat) : Nat := s.holders.count (some (some o))

/-- How many references to `o` the program took into plain pointer variables. -/
def rawRefs (o : Nat) (ops : List HolderOp) : Nat := ops.count (.raw o)

/-- The proviso under which a holder is filled through `void**`: it is empty at that moment. -/
def HolderState.loadOk (s : HolderState) : HolderOp → Prop
  | .load i _ => s.holders[i]? = some (some none)
  | _ => True

/-- A raw pointer handed to a holder leads to an object that is still alive. -/
def HolderState.wrapOk (s : HolderState) : HolderOp → Prop
  | .wrap (some o) => 1 ≤ refs o s.log
  | _ => True

/-- A holder is not assigned to itself. -/
def HolderOp.notSelf : HolderOp → Prop
  | .assign i j => i ≠ j
  | _ => True

/-- Every operation of a history meets `P` in the state it is executed in. -/
def HolderState.Along (P : HolderState → HolderOp → Prop) (s : HolderState) : List HolderOp → Prop
  | [] => True
  | op :: ops => P s op ∧ ∀ s', s.step op = some s' → HolderState.Along P s' ops

/-- No holder ever calls a method of an object whose references have all been given back. -/
def NoDeadCalls (log : List RefCall) : Prop :=
  ∀ l1 c l2 o, log = l1 ++ c :: l2 → (c = .attach o ∨ c = .detach o) → 1 ≤ refs o l1

end Libmorph
