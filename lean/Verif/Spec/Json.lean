import Verif.Model.Bytes
/-
A reader of JSON texts (RFC 8259), on bytes.  Escapes `\uXXXX` in strings are not read, and names of members may repeat.
There is a lax reader besides: it takes a comma before the closing bracket of an array, as some readers do.
-/
namespace Libmorph

/-- A JSON value: numbers without fraction and exponent by value, others by their text. -/
inductive JVal
  | int (n : Int)
  | num (text : List Byte)
  | str (s : List Byte)
  | arr (l : List JVal)
  | obj (l : List (List Byte × JVal))
  | true | false | null

namespace Json

/-- Space, tab, line feed, carriage return. -/
def isWs (b : Byte) : Bool := b = 32 || b = 9 || b = 10 || b = 13

def skipWs (s : List Byte) : List Byte := s.dropWhile isWs

def isDigit (b : Byte) : Bool := 48 ≤ b && b ≤ 57

/-- The value of a string of decimal digits. -/
def natOf (ds : List Byte) : Nat := ds.foldl (fun a d => 10 * a + (d - 48)) 0

/-- The character a letter stands for behind a backslash. -/
def escaped (c : Byte) : Option Byte :=
  if c = 34 ∨ c = 92 ∨ c = 47 then some c else if c = 98 then some 8 else if c = 102 then some 12 else
    if c = 110 then some 10 else if c = 114 then some 13 else if c = 116 then some 9 else none

/-- The rest of a string behind its opening quotation mark, or (`esc`) behind a backslash. -/
def strFrom : Bool → List Byte → Option (List Byte × List Byte)
  | _, [] => none
  | Bool.true, c :: s =>
    match escaped c with
    | none => none
    | some c => (strFrom Bool.false s).map fun p => (c :: p.1, p.2)
  | Bool.false, b :: s =>
    if b = 34 then some ([], s)
    else if b = 92 then strFrom Bool.true s
    else if b < 32 then none
    else (strFrom Bool.false s).map fun p => (b :: p.1, p.2)

def str (s : List Byte) : Option (List Byte × List Byte) := strFrom Bool.false s

/-- The digits at the front. -/
def digits (s : List Byte) : List Byte × List Byte := (s.takeWhile isDigit, s.dropWhile isDigit)

/-- The digits of the integer part: at least one, no zero in front of others. -/
def intDigits (s : List Byte) : Option (List Byte × List Byte) :=
  let ds := (digits s).1
  if ds = [] ∨ (ds.head? = some 48 ∧ ds ≠ [48]) then none else some (digits s)

/-- A fraction, if there is a point. -/
def frac (s : List Byte) : Option (List Byte × List Byte) :=
  match s with
  | [] => some ([], s)
  | b :: r => if b = 46 then if (digits r).1 = [] then none else some (46 :: (digits r).1, (digits r).2) else some ([], s)

/-- An exponent, if there is the letter. -/
def exponent (s : List Byte) : Option (List Byte × List Byte) :=
  match s with
  | [] => some ([], s)
  | b :: r =>
    if b = 101 ∨ b = 69 then
      let sign := r.take (if r.head? = some 43 ∨ r.head? = some 45 then 1 else 0)
      let r := r.drop sign.length
      if (digits r).1 = [] then none else some (b :: sign ++ (digits r).1, (digits r).2)
    else some ([], s)

/-- A number. -/
def number (s : List Byte) : Option (JVal × List Byte) := do
  let sign := s.take (if s.head? = some 45 then 1 else 0)
  let (ds, r) ← intDigits (s.drop sign.length)
  let (fr, r) ← frac r
  let (ex, r) ← exponent r
  if fr = [] ∧ ex = [] then return (.int (if sign = [] then natOf ds else - (natOf ds : Int)), r)
  else return (.num (sign ++ ds ++ fr ++ ex), r)

/-- `true`, `false`, `null`. -/
def literal (s : List Byte) : Option (JVal × List Byte) :=
  if s.take 4 = [116, 114, 117, 101] then some (.true, s.drop 4)
  else if s.take 5 = [102, 97, 108, 115, 101] then some (.false, s.drop 5)
  else if s.take 4 = [110, 117, 108, 108] then some (.null, s.drop 4)
  else none

mutual
/-- A value, after white space.  The first argument bounds the recursion. -/
def value (lax : Bool) : Nat → List Byte → Option (JVal × List Byte)
  | 0, _ => none
  | f + 1, s =>
    match skipWs s with
    | [] => none
    | b :: r =>
      if b = 91 then
        if (skipWs r).head? = some 93 then some (.arr [], (skipWs r).tail) else (elements lax f r).map fun p => (.arr p.1, p.2)
      else if b = 123 then
        if (skipWs r).head? = some 125 then some (.obj [], (skipWs r).tail) else (members lax f r).map fun p => (.obj p.1, p.2)
      else if b = 34 then (str r).map fun p => (.str p.1, p.2)
      else if b = 45 ∨ isDigit b then number (b :: r)
      else literal (b :: r)
/-- The elements of an array, to the closing bracket. -/
def elements (lax : Bool) : Nat → List Byte → Option (List JVal × List Byte)
  | 0, _ => none
  | f + 1, s =>
    match value lax f s with
    | none => none
    | some (v, r) =>
      match skipWs r with
      | [] => none
      | b :: r =>
        if b = 44 then
          if lax ∧ (skipWs r).head? = some 93 then some ([v], (skipWs r).tail) else (elements lax f r).map fun p => (v :: p.1, p.2)
        else if b = 93 then some ([v], r)
        else none
/-- A member: name, colon, value. -/
def member (lax : Bool) : Nat → List Byte → Option ((List Byte × JVal) × List Byte)
  | 0, _ => none
  | f + 1, s =>
    match skipWs s with
    | [] => none
    | b :: r =>
      if b = 34 then
        match str r with
        | none => none
        | some (k, r) =>
          match skipWs r with
          | [] => none
          | b :: r => if b = 58 then (value lax f r).map fun p => ((k, p.1), p.2) else none
      else none
/-- The members of an object, to the closing brace. -/
def members (lax : Bool) : Nat → List Byte → Option (List (List Byte × JVal) × List Byte)
  | 0, _ => none
  | f + 1, s =>
    match member lax f s with
    | none => none
    | some (m, r) =>
      match skipWs r with
      | [] => none
      | b :: r =>
        if b = 44 then (members lax f r).map fun p => (m :: p.1, p.2)
        else if b = 125 then some ([m], r)
        else none
end

/-- One value, white space around. -/
def readWith (lax : Bool) (s : List Byte) : Option JVal :=
  match value lax (s.length + 2) s with
  | some (v, r) => if skipWs r = [] then some v else none
  | none => none

/-- A JSON text. -/
def read (s : List Byte) : Option JVal := readWith Bool.false s

/-- A JSON text, but for commas before the closing bracket of an array. -/
def readLax (s : List Byte) : Option JVal := readWith Bool.true s

end Json
end Libmorph
