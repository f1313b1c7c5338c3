import Verif.Model.Wide
import Verif.Model.Factory
/-
The game of five letters: lang-rus/libdict/utils/5-letters.cpp.
Wide characters are numbers; `none` is undefined behaviour.  The conversions of the printed text (moonycode) and `fprintf` are not modelled:
what is printed is kept as a list of words with their markup.
-/
namespace Libmorph

/-- `1 << (c - u'а')`, 5-letters.cpp:16: undefined unless the letter is one of the 32 from а. -/
def letterBit (c : Nat) : Option Nat := if 0x430 ≤ c ∧ c < 0x450 then some (2 ^ (c - 0x430)) else none

/-- `IsExcluded`, 5-letters.cpp:13-19. -/
def isExcluded : List Nat → Nat → Option Bool
  | [], _ => some false
  | c :: cs, exc => do
    let b ← letterBit c
    if exc &&& b ≠ 0 then return true else isExcluded cs exc

/-- `IsIncluded`, 5-letters.cpp:21-26; `~b` of 32 bits. -/
def isIncluded : List Nat → Nat → Option Bool
  | [], exc => some (exc == 0)
  | c :: cs, exc => do
    let b ← letterBit c
    isIncluded cs (exc &&& (0xFFFFFFFF ^^^ b))

/-- `MakeMask`, 5-letters.cpp:28-36. -/
def makeMask : List Nat → Nat → Option Nat
  | [], mask => some mask
  | c :: cs, mask => do
    let b ← letterBit c
    makeMask cs (mask ||| b)

/-- The inner loop of `GetWordset`, 5-letters.cpp:53-60. -/
def wordsetForms (exc inc : Nat) : List StrMatchW → Option (List (List Nat))
  | [] => some []
  | m :: ms => do
    let here ← if m.id = 0 ∨ m.id = 0xff then do
        if ← isExcluded m.text exc then pure false else isIncluded m.text inc
      else pure false
    let rest ← wordsetForms exc inc ms
    return if here then m.text :: rest else rest

/-- The client of `GetWordset`, 5-letters.cpp:45-63; `info` is `GetWdInfo`, which leaves `wdinfo` unset when it fails. -/
def wordsetCall (info : Nat → Option (Int × Option Nat)) (exc inc : Nat) (c : Nat × List StrMatchW) : Option (List (List Nat)) := do
  let (_, w) ← info c.1
  let wdinfo ← w
  if wdinfo ≥ 7 ∧ wdinfo ≤ 23 then wordsetForms exc inc c.2 else return []

/-- `GetWordset`, 5-letters.cpp:38-66; `find` is `FindMatch`. -/
def getWordset (find : (List (Nat × List StrMatchW) → Int) → List Nat → Option (Int × List (Nat × List StrMatchW)))
    (info : Nat → Option (Int × Option Nat)) (tmpl : List Nat) (exc inc : Nat) : Option (List (List Nat)) := do
  let (_, cs) ← find (fun _ => 0) tmpl
  let ls ← cs.mapM (wordsetCall info exc inc)
  return ls.flatten

/-- One place of `CheckWord`, 5-letters.cpp:72-73: the mark and whether the letters are the same. -/
def markAt (task word : List Nat) (i : Nat) : Option (Nat × Bool) := do
  let t ← task[i]?
  let c ← word[i]?
  if t = c then return (t, true)
  else if 5 ≤ task.length then return (if (task.take 5).contains c then 43 else 45, false)
  else none

/-- `CheckWord`, 5-letters.cpp:68-83: the markup and the answer. -/
def checkGuess (task word : List Nat) : Option (List Nat × Bool) := do
  let ms ← (List.range 5).mapM (markAt task word)
  return (ms.map Prod.fst, ms.all Prod.snd)

/-- `charRank`, 5-samples.cpp:8-42; seven of the numbers begin with 0 and are octal. -/
def charRank : List Nat :=
  [8010, 1590, 4540, 1700, 2980, 8450, 940, 1650, 7350, 1210, 3490, 4400, 3210, 6700, 1097, 2810,
   4730, 5470, 6260, 2620, 0o260, 970, 480, 1440, 0o730, 0o360, 0o040, 1900, 1740, 0o320, 0o640, 2010]

/-- `GetWordRank`, 5-letters.cpp:85-93; unsigned arithmetic. -/
def wordRank : List Nat → Nat → Option Nat
  | [], rank => some rank
  | c :: cs, rank => do
    if c < 0x430 then none
    else
      let r ← charRank[c - 0x430]?
      wordRank cs ((rank + r) % 2 ^ 32)

/-- The choice, 5-letters.cpp:115-126: the first untested word of the highest rank; `best` is the word chosen so far with its rank. -/
def pickLoop (tested : List (List Nat)) : List (List Nat) → Option (List Nat × Nat) → Option (Option (List Nat × Nat))
  | [], best => some best
  | h :: hs, best =>
    if tested.contains h then pickLoop tested hs best
    else do
      let r ← wordRank h 0
      match best with
      | none => pickLoop tested hs (some (h, r))
      | some (b, s) => pickLoop tested hs (if r > s then some (h, r) else some (b, s))

/-- The variables of the loop, 5-letters.cpp:100-105. -/
structure Game where
  search : List Nat
  inc : Nat
  exc : Nat
  hypots : List (List Nat)
  tested : List (List Nat)
  shown : List (List Nat × List Nat)
deriving DecidableEq

/-- One place of the update, 5-letters.cpp:148-156. -/
def updateAt (sample word markup : List Nat) (g : List Nat × Nat × Nat) (i : Nat) : Option (List Nat × Nat × Nat) := do
  let m ← markup[i]?
  let c ← word[i]?
  if m = c then
    let s ← sample[i]?
    if i < g.1.length then return (g.1.set i s, g.2.1, g.2.2) else none
  else if m = 43 then do
    let k ← makeMask [c] 0
    return (g.1, g.2.1 ||| k, g.2.2)
  else if m = 45 then do
    let k ← makeMask [c] 0
    return (g.1, g.2.1, g.2.2 ||| k)
  else return g

/-- What one pass of the loop does. -/
inductive Move
  | next (g : Game)
  | won (shown : List (List Nat × List Nat))
  | lost (shown : List (List Nat × List Nat))

/-- One pass of the loop, 5-letters.cpp:105-159; `ask` is `GetWordset`. -/
def gameStep (ask : List Nat → Nat → Nat → Option (List (List Nat))) (sample : List Nat) (g : Game) : Option Move := do
  if g.hypots = [] then return .lost g.shown
  else
    match ← pickLoop g.tested g.hypots none with
    | none => return .lost g.shown
    | some (word, _) =>
      let (markup, bcheck) ← checkGuess sample word
      let shown := g.shown ++ [(word, markup)]
      if bcheck then return .won shown
      else
        let (search, inc, exc) ← (List.range 5).foldlM (updateAt sample word markup) (g.search, g.inc, g.exc)
        let hypots ← ask search exc inc
        return .next ⟨search, inc, exc, hypots, g.tested ++ [word], shown⟩

/-- The loop, at most `n` passes: `some none` when they do not suffice, otherwise whether the word was found, and what was printed. -/
def gameLoop (ask : List Nat → Nat → Nat → Option (List (List Nat))) (sample : List Nat) : Nat → Game → Option (Option (Bool × List (List Nat × List Nat)))
  | 0, _ => some none
  | n + 1, g => do
    match ← gameStep ask sample g with
    | .next g => gameLoop ask sample n g
    | .won shown => return some (true, shown)
    | .lost shown => return some (false, shown)

/-- `main`, 5-letters.cpp:96-160, behind the call of `mlmaruGetAPI`; the sample, the template and the first excluded letters are literals there. -/
def gameMain (ask : List Nat → Nat → Nat → Option (List (List Nat))) (sample search excluded : List Nat) (n : Nat) :
    Option (Option (Bool × List (List Nat × List Nat))) := do
  let mask ← makeMask excluded 0
  let hypots ← ask search mask 0
  gameLoop ask sample n ⟨search, 0, 0, hypots, [], []⟩

/-- `mlmaruGetAPI( name, &morpho )` on a variable that is null before (5-letters.cpp:94-98, wildcards.cpp:5-11): the object afterwards. -/
def loadMorpho (name : List Byte) : Option (Option ApiInst) := do
  let (_, w) ← rusGetAPI libmorphMagic (some name) true
  return match w with
    | .inst i => some i
    | _ => none

end Libmorph
