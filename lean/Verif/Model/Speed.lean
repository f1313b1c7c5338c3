import Verif.Model.Python
/-
The script that measures how many words of a text are known, pyrusmorph/speed/pyrusmorph-speed.py.  A text is the list of the numbers of its characters.
-/
namespace Libmorph

/-- `[а-яА-ЯёЁ]`, pyrusmorph-speed.py:18. -/
def speedLetter (c : Nat) : Bool := (0x430 ≤ c && c ≤ 0x44f) || (0x410 ≤ c && c ≤ 0x42f) || c == 0x451 || c == 0x401

/-- `re.findall( r'[а-яА-ЯёЁ]+', raw_text )`, pyrusmorph-speed.py:18, for the regular expression it is called with: `run` is the match so far. -/
def findRuns (run : List Nat) : List Nat → List (List Nat)
  | [] => if run = [] then [] else [run]
  | c :: t => if speedLetter c then findRuns (run ++ [c]) t else (if run = [] then [] else [run]) ++ findRuns [] t

/-- What pybind11 makes of a `str` for `const std::string&`: UTF-8; only for letters of two bytes, others do not occur. -/
def pyText (w : List Nat) : List Byte := w.flatMap fun c => [0xc0 + c / 64, 0x80 + c % 64]

/-- The loop, pyrusmorph-speed.py:30-38: `known_count`; `dict` and `guess` are `morph.lemmatize( word, SF_IGNORE_CAPITALS )` and
`fuzzy.lemmatize( word, SF_IGNORE_CAPITALS )`. -/
def speedKnown {α β : Type} (dict : List Byte → Option (List α)) (guess : List Byte → Option (List β)) : List (List Nat) → Option Nat
  | [] => some 0
  | w :: ws => do
    let k ← if w.length > 1 then do
        let r ← dict (pyText w)
        if r.length = 0 then do
          let g ← guess (pyText w)
          pure (if g.length ≠ 0 then 1 else 0)
        else pure 1
      else some 0
    let n ← speedKnown dict guess ws
    pure (k + n)

/-- `benchmark_libmorph( file_path )`, pyrusmorph-speed.py:5-53, as to the two counts printed (the times are not modelled); `file` is the text of the file,
`none` when there is no such file.  The result is `none` within `some` when nothing is printed: the messages of lines 14 and 22 are returned, and the
result of the call in line 54 is not looked at. -/
def speedReport {α β : Type} (dict : List Byte → Option (List α)) (guess : List Byte → Option (List β)) (file : Option (List Nat)) :
    Option (Option (Nat × Nat)) :=
  match file with
  | none => some none
  | some text =>
    let words := findRuns [] text
    if words.length = 0 then some none
    else (speedKnown dict guess words).map fun n => some (words.length, n)

end Libmorph
