import Verif.Model.Tools
import Verif.Model.Letters
/-
Two more programs: utils/benchmark.cpp and lang-rus/libdict/utils/wildcards.cpp.
-/
namespace Libmorph

/-- `is_alpha_extended`, benchmark.cpp:11-14. -/
def isAlphaExt (c : Byte) : Bool := (65 ≤ c && c ≤ 90) || (97 ≤ c && c ≤ 122) || c &&& 0x80 != 0

/-- `GetWords`, benchmark.cpp:16-37, at most `n` passes of the outer loop.  (In a pass that meets the end the pointer is moved one byte
further than C++ allows; it is only compared then, and that is not modelled.) -/
def getWordsN : Nat → List Byte → List (List Byte)
  | 0, _ => []
  | n + 1, s =>
    match s.dropWhile fun c => !isAlphaExt c with
    | [] => []
    | c :: t =>
      let w := c :: t.takeWhile isAlphaExt
      let rest := getWordsN n (t.dropWhile isAlphaExt)
      if w.length > 1 then w :: rest else rest

/-- `GetWords`; each pass but the last takes a letter at least. -/
def getWords (s : List Byte) : List (List Byte) := getWordsN (s.length + 1) s

/-- One pass over the words, benchmark.cpp:48-54: `call` is Lemmatize with an array of records whose content on the stack at the `k`-th call is
`stack k`. -/
def benchPass (call : List Lemm → List Byte → Option Int) (stack : Nat → List Lemm) : List (List Byte) → Nat × Nat → Option (Nat × Nat)
  | [], kv => some kv
  | w :: ws, (k, v) => do
    let r ← call (stack k) w
    benchPass call stack ws (k + 1, if r ≠ 0 then (v + 1) % 2 ^ 32 else v)

/-- The hundred passes, benchmark.cpp:46-55: the total, the valid words. -/
def benchPasses (call : List Lemm → List Byte → Option Int) (stack : Nat → List Lemm) (ws : List (List Byte)) : Nat → Nat × Nat × Nat → Option (Nat × Nat)
  | 0, (_, v, t) => some (t, v)
  | n + 1, (k, v, t) => do
    let (k, v) ← benchPass call stack ws (k, v)
    benchPasses call stack ws n (k, v, (t + ws.length) % 2 ^ 32)

/-- The numbers that are printed. -/
structure BenchReport where
  total : Nat
  known : Nat
  wps : Nat
deriving DecidableEq

/-- `Benchmark( morpho, subset )`, benchmark.cpp:39-64.  `ms`: the milliseconds that have passed.  The quotient is converted to `unsigned`, which is
undefined when no millisecond has passed (it is infinite or no number then) or the number is too large.  The quotient is taken to be exact. -/
def benchmark (call : List Lemm → List Byte → Option Int) (stack : Nat → List Lemm) (ms : Nat) (text : List Byte) : Option BenchReport := do
  let (t, v) ← benchPasses call stack (getWords text) 100 (0, 0, 0)
  if ms = 0 then none
  else if 2 ^ 32 ≤ t * 1000 / ms then none
  else return ⟨t, v, t * 1000 / ms⟩

/-- `main`, benchmark.cpp:114-151; `args` without the name of the program, `load` says which library has which functions, `files` what the files contain
(or the code and the text of the error), `run` is the benchmark with the object, `print` the text of its numbers. -/
def benchMain (magic : String) (about : List Byte) (load : List Byte → Option (List Byte → Option (List Byte → Option (Int × PtrWrite))))
    (files : List Byte → Except (Nat × List Byte) (List Byte)) (run : ApiInst → List Byte → Option BenchReport) (print : BenchReport → List Byte)
    (args : List (List Byte)) : Option ToolRun :=
  match args with
  | path :: fn :: file :: _ =>
    match load path with
    | none => some (failWith (asciiBytes "Error: could not load library '" ++ path ++ asciiBytes "'\n"))
    | some find =>
      let fnName := fn.takeWhile (· ≠ 58)
      let encode := if 58 ∈ fn then (fn.dropWhile (· ≠ 58)).drop 1 else asciiBytes "utf-8"
      if encode = [] then some (failWith (asciiBytes "Error: empty encoding string\n"))
      else
        match find fnName with
        | none => some (failWith (asciiBytes "Error: could not find function '" ++ fnName ++ asciiBytes "'\n"))
        | some getAPI => do
          let (r, p) ← getAPI (asciiBytes magic ++ encode ++ [0])
          if r ≠ 0 then return failWith (asciiBytes "Error: could not load morphological analyser API. Invalid codepage string?\n")
          else
            match p with
            | .inst i =>
              match files file with
              | .error (e, msg) => return ⟨[], msg, e % 256⟩
              | .ok text => do
                let rep ← run i text
                return ⟨print rep, [], 0⟩
            | _ => none
  | _ => some ⟨about, [], 0⟩

/-! ### wildcards.cpp -/

/-- `fgets( szline, 0x100, stdin )`, wildcards.cpp:13: at most 0xff bytes, up to a newline (included). -/
def wildFgets : List Byte → Nat → List Byte → List (List Byte)
  | [], _, cur => if cur = [] then [] else [cur]
  | c :: s, room, cur =>
    if c = 10 ∨ room ≤ 1 then (cur ++ [c]) :: wildFgets s 0xff [] else wildFgets s (room - 1) (cur ++ [c])

/-- wildcards.cpp:17-21: the C string without the control characters at its end. -/
def wildTrim (l : List Byte) : List Byte := ((l.takeWhile (· ≠ 0)).reverse.dropWhile (· < 32)).reverse

/-- The callback, wildcards.cpp:26-30: it prints the first form it is given. -/
def wildShow : List (Nat × List StrMatch) → Option (List Byte)
  | [] => some []
  | c :: cs => do
    let m ← c.2.head?
    let rest ← wildShow cs
    return 9 :: m.text.takeWhile (· ≠ 0) ++ [10] ++ rest

/-- The loop, wildcards.cpp:13-31; `find` is FindMatch with a callback that answers 1. -/
def wildLoop (find : List Byte → Option (Int × List (Nat × List StrMatch))) : List (List Byte) → Option (List Byte)
  | [] => some []
  | l :: ls =>
    let t := wildTrim l
    if t = [] then some []
    else do
      let (_, cs) ← find t
      let here ← wildShow cs
      let rest ← wildLoop find ls
      return here ++ rest

/-- `main`, wildcards.cpp:7-33; `name` is what is passed to `mlmaruGetAPI`, calls through a null pointer are undefined. -/
def wildcardsMain (find : ApiInst → List Byte → Option (Int × List (Nat × List StrMatch))) (name input : List Byte) : Option (List Byte) := do
  match ← loadMorpho name with
  | none => wildLoop (fun _ => none) (wildFgets input 0xff [])
  | some i => wildLoop (find i) (wildFgets input 0xff [])

end Libmorph
