/-
The C++ smart holder of an interface, api.hpp:441-465, and the factory functions that write into it.
-/
namespace Libmorph

/-- A call on an API object: `Attach()` or `Detach()` by a holder, `Attach()` by a factory function. -/
inductive RefCall
  | attach (o : Nat)
  | detach (o : Nat)
  | factory (o : Nat)
deriving DecidableEq, Repr

/-- All holders ever constructed, by number (`none`: destroyed; `some none`: empty; `some (some o)`: points
to object `o`), and the calls made on API objects so far, in order. -/
structure HolderState where
  holders : List (Option (Option Nat)) := []
  log : List RefCall := []
deriving DecidableEq, Repr

/-- `Attach()` on the object a pointer leads to, if any. -/
def attachCall : Option Nat → List RefCall
  | none => []
  | some o => [.attach o]

/-- `Detach()` on the object a pointer leads to, if any. -/
def detachCall : Option Nat → List RefCall
  | none => []
  | some o => [.detach o]

/-- `Morpho::Assign( p )`, api.hpp:457-464, on the holder number `i` with pointer `cur`: detach the old
object first, then attach the new one. -/
def HolderState.assign (s : HolderState) (i : Nat) (cur p : Option Nat) : HolderState :=
  ⟨s.holders.set i (some p), s.log ++ detachCall cur ++ attachCall p⟩

/-- What a program does with holders.
* `fresh`: `Morpho()`;
* `wrap p`: `Morpho( p )` with a raw pointer;
* `copy j`: `Morpho( const Morpho& )`;
* `assign i j`: `m_i = m_j`;
* `destroy i`: the destructor;
* `load i o`: `mlmaruGetAPI( key, m_i )` through `operator void**` (api.hpp:454): the pointer is overwritten
  with an attached one (lang-rus/libdict/mlmamain.cpp:475-478);
* `raw o`: a factory call into a plain pointer variable. -/
inductive HolderOp
  | fresh
  | wrap (p : Option Nat)
  | copy (j : Nat)
  | assign (i j : Nat)
  | destroy (i : Nat)
  | load (i o : Nat)
  | raw (o : Nat)
deriving DecidableEq, Repr

/-- api.hpp:447-454; `none`: the operation names a holder that does not exist (any more). -/
def HolderState.step (s : HolderState) : HolderOp → Option HolderState
  | .fresh => some { s with holders := s.holders ++ [some none] }
  | .wrap p => some (HolderState.assign { s with holders := s.holders ++ [some none] } s.holders.length none p)
  | .copy j =>
    match s.holders[j]? with
    | some (some p) => some (HolderState.assign { s with holders := s.holders ++ [some none] } s.holders.length none p)
    | _ => none
  | .assign i j =>
    match s.holders[i]?, s.holders[j]? with
    | some (some cur), some (some p) => some (s.assign i cur p)
    | _, _ => none
  | .destroy i =>
    match s.holders[i]? with
    | some (some cur) => some ⟨(s.assign i cur none).holders.set i none, (s.assign i cur none).log⟩
    | _ => none
  | .load i o =>
    match s.holders[i]? with
    | some (some _) => some ⟨s.holders.set i (some (some o)), s.log ++ [.factory o]⟩
    | _ => none
  | .raw o => some { s with log := s.log ++ [.factory o] }

/-- A whole history. -/
def HolderState.run (s : HolderState) : List HolderOp → Option HolderState
  | [] => some s
  | op :: ops => (s.step op).bind fun s => s.run ops

end Libmorph
