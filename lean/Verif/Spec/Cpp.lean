/-
What a C++ compiler reads in a text of the kind the dictionary compilers write: namespaces, arrays and numbers.  Nothing of the model is used.
A character is its number.
-/
namespace Libmorph.Spec

inductive CTok where
  | word (s : List Nat)
  | num (v : Nat)
  | punct (c : Nat)
deriving DecidableEq

/-- Letters, digits, '_'. -/
def isWordChar (c : Nat) : Bool := (48 ≤ c && c ≤ 57) || (65 ≤ c && c ≤ 90) || c = 95 || (97 ≤ c && c ≤ 122)

def isDecDigit (c : Nat) : Bool := 48 ≤ c && c ≤ 57

/-- The value of a hexadecimal digit. -/
def hexVal (c : Nat) : Option Nat :=
  if 48 ≤ c && c ≤ 57 then some (c - 48) else if 97 ≤ c && c ≤ 102 then some (c - 87) else if 65 ≤ c && c ≤ 70 then some (c - 55) else none

/-- The value of digits after what has the value `v`. -/
def hexFrom : Nat → List Nat → Option Nat
  | v, [] => some v
  | v, c :: s => (hexVal c).bind fun d => hexFrom (16 * v + d) s

def decFrom : Nat → List Nat → Option Nat
  | v, [] => some v
  | v, c :: s => if isDecDigit c then decFrom (10 * v + (c - 48)) s else none

/-- The value of a literal: hexadecimal after "0x"; "0"; decimal, not beginning with '0'.  (Octal literals, suffixes: none.) -/
def literal : List Nat → Option Nat
  | [48] => some 0
  | 48 :: 120 :: c :: s => hexFrom 0 (c :: s)
  | c :: s => if c = 48 then none else decFrom 0 (c :: s)
  | [] => none

/-- What stands behind a comment that has begun with "/*". -/
def afterBlock : List Nat → Option (List Nat)
  | 42 :: 47 :: s => some s
  | _ :: s => afterBlock s
  | [] => none

/-- What stands behind a comment that has begun with "//". -/
def afterLine : List Nat → List Nat
  | [] => []
  | c :: s => if c = 10 then s else afterLine s

theorem afterBlock_length : ∀ (s : List Nat) {r : List Nat}, afterBlock s = some r → r.length < s.length
  | [], r, h => by simp [afterBlock] at h
  | [c], r, h => by
    unfold afterBlock at h
    split at h
    · simp_all
    · simp_all [afterBlock]
    · simp at h
  | c :: d :: s, r, h => by
    unfold afterBlock at h
    split at h
    · rename_i e; simp at e h; obtain ⟨_, _, rfl⟩ := e; subst h; simp; omega
    · rename_i e; simp at e
      obtain ⟨_, rfl⟩ := e
      have := afterBlock_length (d :: s) h
      simp at this ⊢; omega
    · simp at h

theorem afterLine_length : ∀ s : List Nat, (afterLine s).length ≤ s.length
  | [] => by simp [afterLine]
  | c :: s => by
    rw [afterLine]
    split
    · simp
    · have := afterLine_length s
      simp; omega

theorem dropWhile_length (p : Nat → Bool) : ∀ s : List Nat, (s.dropWhile p).length ≤ s.length
  | [] => by simp
  | c :: s => by
    rw [List.dropWhile_cons]
    split
    · have := dropWhile_length p s
      simp; omega
    · simp

/-- The tokens of a text: blanks and comments are skipped, words and numbers are as long as can be. -/
def cTokens (s : List Nat) : Option (List CTok) :=
  match s with
  | [] => some []
  | c :: s =>
    if c = 32 ∨ c = 9 ∨ c = 10 ∨ c = 13 then cTokens s
    else if c = 47 ∧ s.head? = some 42 then
      match h : afterBlock s.tail with
      | some r => cTokens r
      | none => none
    else if c = 47 ∧ s.head? = some 47 then cTokens (afterLine s)
    else if c ∈ [91, 93, 123, 125, 61, 44, 59] then (cTokens s).map (CTok.punct c :: ·)
    else if c = 58 ∧ s.head? = some 58 then (cTokens s.tail).map (CTok.punct 58 :: ·)   -- "::"
    else if isDecDigit c then
      (literal (c :: s.takeWhile isWordChar)).bind fun v => (cTokens (s.dropWhile isWordChar)).map (CTok.num v :: ·)
    else if isWordChar c then (cTokens (s.dropWhile isWordChar)).map (CTok.word (c :: s.takeWhile isWordChar) :: ·)
    else none
termination_by s.length
decreasing_by
  · simp
  · have := afterBlock_length _ h
    have : s.tail.length ≤ s.length := by simp
    simp; omega
  · have := afterLine_length s
    simp; omega
  · simp
  · have : s.tail.length ≤ s.length := by simp
    simp; omega
  · have := dropWhile_length isWordChar s
    simp; omega
  · have := dropWhile_length isWordChar s
    simp; omega

/-- A declaration: where it is, its name, the bits of a value, the values; of a number, one. -/
structure CDecl where
  scope : List (List Nat)
  name : List Nat
  bits : Nat
  array : Bool
  values : List Nat
deriving DecidableEq

/-- The values of an array up to its '}', and the tokens behind: at least one, with ',' between them; a last ',' is allowed. -/
def cItems : List CTok → Option (List Nat × List CTok)
  | .num v :: .punct 125 :: ts => some ([v], ts)
  | .num v :: .punct 44 :: .punct 125 :: ts => some ([v], ts)
  | .num v :: .punct 44 :: ts => (cItems ts).map fun r => (v :: r.1, r.2)
  | _ => none

/-- The name of a namespace up to its '{', and the tokens behind: names with "::" between them (C++17). -/
def cPath : List CTok → Option (List (List Nat) × List CTok)
  | .word name :: .punct 123 :: ts => some ([name], ts)
  | .word name :: .punct 58 :: ts => (cPath ts).map fun r => (name :: r.1, r.2)
  | _ => none

/-- Declarations, inside of the namespaces `scope`, each one opened by a '{'; `n` limits their number. -/
def cDecls : Nat → List (List (List Nat)) → List CTok → Option (List CDecl)
  | 0, _, _ => none
  | n + 1, scope, ts =>
    match ts with
    | [] => if scope = [] then some [] else none
    | .punct 125 :: ts => if scope = [] then none else cDecls n scope.dropLast ts
    | .word w :: ts =>
      if w = [110, 97, 109, 101, 115, 112, 97, 99, 101] then   -- namespace
        match cPath ts with
        | some (names, ts) => cDecls n (scope ++ [names]) ts
        | none => none
      else if w = [117, 110, 115, 105, 103, 110, 101, 100] then   -- unsigned
        match ts with
        | .word name :: .punct 61 :: .num v :: .punct 59 :: ts =>
          if v < 2 ^ 32 then (cDecls n scope ts).map (⟨scope.flatten, name, 32, false, [v]⟩ :: ·) else none
        | .word name :: .punct 91 :: .punct 93 :: .punct 61 :: .punct 123 :: ts =>
          match cItems ts with
          | some (vs, .punct 59 :: ts) => if ∀ v ∈ vs, v < 2 ^ 32 then (cDecls n scope ts).map (⟨scope.flatten, name, 32, true, vs⟩ :: ·) else none
          | _ => none
        | .word w :: .word name :: .punct 91 :: .punct 93 :: .punct 61 :: .punct 123 :: ts =>
          if w = [99, 104, 97, 114] then   -- char
            match cItems ts with
            | some (vs, .punct 59 :: ts) => if ∀ v ∈ vs, v < 256 then (cDecls n scope ts).map (⟨scope.flatten, name, 8, true, vs⟩ :: ·) else none
            | _ => none
          else none
        | _ => none
      else none
    | _ => none

/-- What the compiler makes of a text. -/
def cRead (text : List Nat) : Option (List CDecl) := (cTokens text).bind fun ts => cDecls (ts.length + 1) [] ts

/-- A word: letters, digits, '_', not beginning with a digit. -/
structure CWord (s : List Nat) : Prop where
  some_ : ∃ c t, s = c :: t ∧ isDecDigit c = false
  chars : ∀ c ∈ s, isWordChar c = true

/-- A name: a word that is none of the language (of those that matter here: char, unsigned, namespace). -/
structure CName (s : List Nat) : Prop where
  word : CWord s
  plain : s ∉ [[99, 104, 97, 114], [117, 110, 115, 105, 103, 110, 101, 100], [110, 97, 109, 101, 115, 112, 97, 99, 101]]

/-- Names with "::" between them. -/
def joinPath : List (List Nat) → List Nat
  | [] => []
  | [n] => n
  | n :: m :: ns => n ++ [58, 58] ++ joinPath (m :: ns)

/-- The name of a namespace, in another one perhaps: one name or several with "::" between them. -/
def CPath (s : List Nat) : Prop := ∃ names, names ≠ [] ∧ (∀ n ∈ names, CName n) ∧ s = joinPath names

/-- The names between the "::" of a text. -/
def pathOf : List Nat → List (List Nat)
  | [] => [[]]
  | 58 :: 58 :: s => [] :: pathOf s
  | c :: s =>
    match pathOf s with
    | n :: ns => (c :: n) :: ns
    | [] => [[c]]

/-- The namespaces that a name says; no name: the global one. -/
def scopeOf (nspace : List Nat) : List (List Nat) := if nspace = [] then [] else pathOf nspace

/-- A text without tokens: blanks and comments. -/
def NoTokens (s : List Nat) : Prop := ∀ r, cTokens (s ++ 10 :: r) = cTokens r

end Libmorph.Spec
