import Verif.Model.WordTree
/-
Traversal of compiled tree images: xmorph/scandict.h, classes `Counters` and `Flat`.
-/
namespace Libmorph

/-- xmorph/scandict.h:47-60 `Counters::getvalue`. -/
def getcount : Counter → List Byte → Option (Nat × List Byte)
  | .u8, p => getbyte p
  | .u16, p => getword16 p

/-- xmorph/scandict.h:65-66 `counter::hasupper`. -/
def Counter.hasupper (c : Counter) (a : Nat) : Bool := (a &&& c.top) != 0

/-- xmorph/scandict.h:67-68 `counter::getlower`: `a & ~top`, written as the remainder modulo `top`
(for a value of the counter type the top bit is the highest bit). -/
def Counter.getlower (c : Counter) (a : Nat) : Nat := a % c.top

/-- The character searched for on a level, xmorph/scandict.h:94: the first character of the
fragment, or 0 when the fragment is empty.  `none`: the read is outside the key buffer. -/
def chfindOf (f : Frag) : Option Byte :=
  if f.len > 0 then f.mem.head? else some 0

/-! ### The explicit stack machine, as written -/

/-- xmorph/scandict.h:80-86 `scan_stack`. -/
structure Level where
  str : Frag
  chfind : Byte
  dic : List Byte
  flags : Nat
  ccount : Nat

/-- xmorph/scandict.h:89-96 `scan_stack::setlevel`. -/
def setlevel (c : Counter) (p : List Byte) (f : Frag) : Option Level := do
  let (flags, dic) ← getcount c p
  let ch ← chfindOf f
  return ⟨f, ch, dic, flags, c.getlower flags⟩

/-- xmorph/scandict.h:97-111 `scan_stack::findchar`, on the two fields it changes. -/
def findcharLoop (up : Bool) (chfind : Byte) : Nat → List Byte → Option (Option (List Byte) × List Byte × Nat)
  | 0, dic => some (none, dic, 0)
  | n + 1, dic => do
    let (chnext, dic) ← getbyte dic
    let (sublen, subdic) ← getserial dic
    let dic := subdic.drop sublen
    if chfind = chnext then return (some subdic, dic, n)
    else if chfind > chnext && !up then return (none, dic, n)
    else findcharLoop up chfind n dic

/-- xmorph/scandict.h:97-111 `scan_stack::findchar`. -/
def Level.findchar (c : Counter) (l : Level) : Option (Option (List Byte) × Level) := do
  let (r, dic, n) ← findcharLoop (c.hasupper l.flags) l.chfind l.ccount l.dic
  return (r, { l with dic := dic, ccount := n })

/-- `astack[0x40]`, xmorph/scandict.h:167. -/
def maxLevels : Nat := 0x40

/-- xmorph/scandict.h:164-189 `Flat::ScanTree`, the loop over the explicit stack (top of the stack
first).  `act` is `doitem`; a non-zero result is `some r`.  The outcome is `none` on undefined
behaviour (reads outside the image, stack overrun) and when the step budget is exhausted. -/
def scanMachine {σ ρ : Type} (c : Counter) (act : List Byte → Frag → σ → Option (Option ρ × σ)) :
    Nat → List Level → σ → Option (Option ρ × σ)
  | 0, _, _ => none
  | _ + 1, [], s => some (none, s)
  | fuel + 1, l :: st, s => do
    let (r, l) ← l.findchar c
    match r with
    | none =>
      if c.hasupper l.flags then
        let (res, s) ← act l.dic l.str s
        match res with
        | some r => return (some r, s)
        | none => scanMachine c act fuel st s
      else scanMachine c act fuel st s
    | some sub =>
      if st.length + 1 ≥ maxLevels then none
      else
        let l' ← setlevel c sub l.str.next
        scanMachine c act fuel (l' :: l :: st) s

/-! ### The same traversal as a recursion (proved equal to the machine) -/

/-- One level of the traversal: the remaining `n` children, then the node's own value.
`descend` continues in a child. -/
def scanKids {σ ρ : Type} (act : List Byte → Frag → σ → Option (Option ρ × σ))
    (descend : List Byte → σ → Option (Option ρ × σ)) (up : Bool) (chfind : Byte) (f : Frag) :
    Nat → List Byte → σ → Option (Option ρ × σ)
  | 0, dic, s => if up then act dic f s else some (none, s)
  | n + 1, dic, s => do
    let (chnext, dic) ← getbyte dic
    let (sublen, subdic) ← getserial dic
    let dic := subdic.drop sublen
    if chfind = chnext then
      let (res, s) ← descend subdic s
      match res with
      | some r => return (some r, s)
      | none => scanKids act descend up chfind f n dic s
    else if chfind > chnext && !up then return (none, s)
    else scanKids act descend up chfind f n dic s

/-- A node of the traversal; the first argument is the number of stack levels still available. -/
def scanNode {σ ρ : Type} (c : Counter) (act : List Byte → Frag → σ → Option (Option ρ × σ)) :
    Nat → List Byte → Frag → σ → Option (Option ρ × σ)
  | 0, _, _, _ => none
  | d + 1, p, f, s => do
    let (flags, dic) ← getcount c p
    let ch ← chfindOf f
    scanKids act (fun sub s => scanNode c act d sub f.next s) (c.hasupper flags) ch f
      (c.getlower flags) dic s

/-- xmorph/scandict.h:164-189 `Flat::ScanTree`.  Simplification: recursion instead of the explicit
stack; `scanTree_eq_machine` proves the two equal on every image. -/
def scanTree {σ ρ : Type} (c : Counter) (act : List Byte → Frag → σ → Option (Option ρ × σ))
    (p : List Byte) (f : Frag) (s : σ) : Option (Option ρ × σ) :=
  scanNode c act maxLevels p f s

/-! ### GetTrack -/

/-- xmorph/scandict.h:142-156: the children of a node in `Flat::GetTrack`.  `pos` is `dicpos`,
given as the number of bytes from it to the end of the image (`none` is `nullptr`), so that
`dicpos >= p` reads `pos ≤ p.length`.  `fin` is the final statement, line 157. -/
def trackKids {σ ρ : Type} (descend : Byte → List Byte → σ → Option (Option ρ × σ))
    (fin : List Byte → σ → Option (Option ρ × σ)) (pos : Option Nat) :
    Nat → List Byte → σ → Option (Option ρ × σ)
  | 0, dic, s => fin dic s
  | n + 1, dic, s => do
    let (chnext, dic) ← getbyte dic
    let (sublen, subdic) ← getserial dic
    let dic := subdic.drop sublen
    let sel := match pos with
      | none => true
      | some r => decide (r ≤ subdic.length ∧ dic.length ≤ r)
    if sel then
      let (res, s) ← descend chnext subdic s
      match res with
      | some r => return (some r, s)
      | none => trackKids descend fin pos n dic s
    else trackKids descend fin pos n dic s

/-- xmorph/scandict.h:132-158 `Flat::GetTrack`.  The first number is the room left in the track
buffer (`ptrack[ltrack] = chnext` outside it is undefined behaviour), `tr` is the track so far. -/
def getTrack {σ ρ : Type} (c : Counter) (act : List Byte → List Byte → σ → Option (Option ρ × σ))
    (pos : Option Nat) : Nat → List Byte → List Byte → σ → Option (Option ρ × σ)
  | room, p, tr, s => do
    let (flags, dic) ← getcount c p
    trackKids
      (fun ch sub s => match room with
        | 0 => none
        | room + 1 => getTrack c act pos room sub (tr ++ [ch]) s)
      (fun dic s => if c.hasupper flags then act dic tr s else some (none, s))
      pos (c.getlower flags) dic s

end Libmorph
