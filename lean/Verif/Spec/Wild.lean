import Verif.Model.Bytes
/-
What a template means.
-/
namespace Libmorph

/-- A string matches a template: `*` (42) stands for any string, `?` (63) for one letter, everything else for itself. -/
inductive WildMatch : List Byte → List Byte → Prop where
  | nil : WildMatch [] []
  | none {p w : List Byte} : WildMatch p w → WildMatch (42 :: p) w
  | more {p w : List Byte} {c : Byte} : WildMatch (42 :: p) w → WildMatch (42 :: p) (c :: w)
  | any {p w : List Byte} {c : Byte} : WildMatch p w → WildMatch (63 :: p) (c :: w)
  | same {p w : List Byte} {c : Byte} : c ≠ 42 → c ≠ 63 → WildMatch p w → WildMatch (c :: p) (c :: w)

/-- `r` is a rest of the template when `w` has been read with its beginning: `WildRest p w r`; an asterisk that is
the last character is never left. -/
inductive WildRest : List Byte → List Byte → List Byte → Prop where
  | stop {p : List Byte} : WildRest p [] p
  | none {p w r : List Byte} : p ≠ [] → WildRest p w r → WildRest (42 :: p) w r
  | more {p w r : List Byte} {c : Byte} : WildRest (42 :: p) w r → WildRest (42 :: p) (c :: w) r
  | any {p w r : List Byte} {c : Byte} : WildRest p w r → WildRest (63 :: p) (c :: w) r
  | same {p w r : List Byte} {c : Byte} : c ≠ 42 → c ≠ 63 → WildRest p w r → WildRest (c :: p) (c :: w) r

/-- The number of ways in which a template reads a string. -/
def wildWays : List Byte → List Byte → Nat
  | [], [] => 1
  | [], _ :: _ => 0
  | c :: p, [] => if c = 42 then wildWays p [] else 0
  | c :: p, x :: w =>
    if c = 42 then wildWays p (x :: w) + wildWays (c :: p) w
    else if c = 63 ∨ c = x then wildWays p w else 0
termination_by p w => p.length + w.length

/-- The rests of a template behind a string, without the step that lets an asterisk stand for nothing at its end. -/
def wildRests : List Byte → List Byte → List (List Byte)
  | p, [] => [p]
  | [], _ :: _ => []
  | c :: p, x :: w =>
    if c = 42 then wildRests p (x :: w) ++ wildRests (c :: p) w
    else if c = 63 ∨ c = x then wildRests p w else []
termination_by p w => p.length + w.length

/-- Only the last character of the template may be an asterisk. -/
def StarLast : List Byte → Prop
  | [] => True
  | c :: rest => (c = 42 → rest = []) ∧ StarLast rest

end Libmorph
