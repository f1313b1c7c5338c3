import Verif.Model.CharTables
/-
Capitalization: xmorph/capsheme.cpp, xmorph/capsheme.h.
-/
namespace Libmorph

/-- The three tables a `CapScheme` object holds, xmorph/capsheme.h:68-70. -/
structure CharTab where
  ctype : Byte → Nat
  lower : Byte → Byte
  upper : Byte → Byte

/-- The English tables, lang-eng/chartype.cpp:37-203. -/
def engTab : CharTab :=
  ⟨fun b => engCharTypeMatrix.getD b 3, fun b => engToLoCaseMatrix.getD b 0, fun b => engToUpCaseMatrix.getD b 0⟩

/-- The Russian tables, lang-rus/chartype.cpp:37-202. -/
def rusTab : CharTab :=
  ⟨fun b => rusCharTypeMatrix.getD b 3, fun b => rusToLoCaseMatrix.getD b 0, fun b => rusToUpCaseMatrix.getD b 0⟩

/-- xmorph/capsheme.h:97-100 `CT_CAPITAL` -/
abbrev ctCapital : Nat := 0
/-- xmorph/capsheme.h:97-100 `CT_REGULAR` -/
abbrev ctRegular : Nat := 1
/-- xmorph/capsheme.h:97-100 `CT_DLMCHAR` -/
abbrev ctDlm : Nat := 2
/-- xmorph/capsheme.h:97-100 `CT_INVALID` -/
abbrev ctInvalid : Nat := 3

/-- xmorph/capsheme.cpp:37-45 `capStateMatrix`; rows: undefined 0, all_small 1, first_cap 2,
word_caps 3, first_was 4, error_cap 5 (xmorph/capsheme.h:58-66). -/
def capStateMatrix : List (List Nat) :=
  [[4, 1, 5, 5], [5, 1, 1, 5], [5, 2, 2, 5], [3, 5, 3, 5], [3, 2, 3, 5], [5, 5, 5, 5]]

/-- `capStateMatrix[state][chtype]` -/
def capNext (st ty : Nat) : Nat := (capStateMatrix.getD st []).getD ty 5

/-- xmorph/capsheme.cpp:69-73: one part, up to a delimiter, the end of the source or the end of the
output.  `room` is `outend - output`.  Result: bytes stored, state, rest of the source, room left. -/
def capPart (T : CharTab) : Nat → List Byte → Nat → List Byte × Nat × List Byte × Nat
  | 0, src, sc => ([], sc, src, 0)
  | room + 1, [], sc => ([], sc, [], room + 1)
  | room + 1, c :: src, sc =>
    if T.ctype c = ctDlm then ([], sc, c :: src, room + 1)
    else
      let (o, sc', src', room') := capPart T room src (capNext sc (T.ctype c))
      (T.lower c :: o, sc', src', room')

theorem capPart_src_le (T : CharTab) (room : Nat) (src : List Byte) (sc : Nat) :
    (capPart T room src sc).2.2.1.length ≤ src.length := by
  induction room generalizing src sc with
  | zero => simp [capPart]
  | succ room ih =>
    cases src with
    | nil => simp [capPart]
    | cons c src =>
      simp only [capPart]
      split
      · simp
      · exact Nat.le_succ_of_le (ih src (capNext sc (T.ctype c)))

theorem capPart_progress (T : CharTab) (room : Nat) (c : Byte) (src : List Byte) (sc : Nat) :
    (capPart T (room + 1) (c :: src) sc).2.2.1 = c :: src ∨
    (capPart T (room + 1) (c :: src) sc).2.2.1.length ≤ src.length := by
  simp only [capPart]
  split
  · exact Or.inl rfl
  · exact Or.inr (capPart_src_le T room src _)

/-- xmorph/capsheme.cpp:64-92, the outer loop of `CapScheme::Get`.  The outer `none` is undefined
behaviour (shift by 32 bits or more), `some none` is the result `(unsigned)-1`, otherwise the bytes
stored in front of the terminator, `cdefis`, `scheme`, `bvalid`. -/
def capLoop (T : CharTab) (room : Nat) (src : List Byte) (cdefis scheme : Nat) (bvalid : Bool) (out : List Byte) :
    Option (Option (List Byte × Nat × Nat × Bool)) :=
  match room, src with
  | 0, _ => some none
  | _ + 1, [] => some (some (out, cdefis, scheme, bvalid))
  | room + 1, c :: src =>
    let r := capPart T (room + 1) (c :: src) 0
    let room1 := r.2.2.2
    if room1 = 0 then some none
    else
      let sc := capNext r.2.1 ctDlm
      if 32 ≤ 2 * cdefis then none
      else
        let bvalid := bvalid && sc != 5
        let scheme := scheme ||| (((sc - 1) <<< (2 * cdefis)) % 2 ^ 32)
        match h : r.2.2.1 with
        | [] => capLoop T room1 [] cdefis scheme bvalid (out ++ r.1)
        | d :: src2 =>
          if T.ctype d = ctDlm then capLoop T (room1 - 1) src2 (cdefis + 1) scheme bvalid (out ++ r.1 ++ [d])
          else some none
termination_by src.length
decreasing_by
  all_goals simp only [List.length_cons, List.length_nil]
  · omega
  · have := capPart_src_le T (room + 1) (c :: src) 0
    have h' : (capPart T (room + 1) (c :: src) 0).2.2.1 = d :: src2 := h
    rw [h'] at this
    simp only [List.length_cons] at this; omega

/-- xmorph/capsheme.cpp:51-95 `CapScheme::Get` on a string of known length; `outlen` is the size of
the output array.  Result as in `capLoop`, with the returned word. -/
def capGet (T : CharTab) (outlen : Nat) (src : List Byte) : Option (Option (List Byte × Nat)) := do
  match ← capLoop T outlen src 0 0 true [] with
  | none => return none
  | some (out, cdefis, scheme, bvalid) =>
    return some (out, ((out.length <<< 16) % 2 ^ 32) ||| (((cdefis + 1) <<< 8) % 2 ^ 32) ||| (if bvalid then scheme else 0xff))

/-- xmorph/capsheme.h:119-122 `IsGoodShemeMin2`. -/
def isGoodMin2 (s : Nat) : Bool := s == 0x0102 || s == 0x020A || s == 0x032A

/-- xmorph/capsheme.h:124-128 `IsGoodShemeMin1`. -/
def isGoodMin1 (s : Nat) : Bool := s == 0x0101 || s == 0x0205 || s == 0x0311 || isGoodMin2 s

/-- xmorph/capsheme.h:130-134 `IsGoodShemeMin0`. -/
def isGoodMin0 (s : Nat) : Bool :=
  s == 0x0100 || s == 0x0200 || s == 0x0300 || s == 0x0201 || s == 0x0301 || isGoodMin1 s

/-- xmorph/capsheme.h:136-141 `IsGoodSheme`. -/
def isGood (s minCap : Nat) : Bool :=
  if minCap = 2 then isGoodMin2 s else if minCap = 1 then isGoodMin1 s else if minCap = 0 then isGoodMin0 s else false

/-- xmorph/capsheme.cpp:121-134: the scheme word for a number of parts. -/
def capWord (nparts min : Nat) : Nat :=
  match nparts with
  | 1 => min
  | 2 => min ||| (min <<< 2)
  | 3 => min ||| (min <<< 4) ||| ((min &&& 2) <<< 2)
  | _ => 0

/-- xmorph/capsheme.cpp:141-142: one part.  The memory from `str` on; `none` is a read outside it. -/
def setPart (T : CharTab) : Nat → List Byte → Option (List Byte × List Byte)
  | _, [] => none
  | strcap, c :: mem =>
    if c = 0 ∨ T.ctype c = ctDlm then some ([], c :: mem)
    else do
      let (done, rest) ← setPart T (strcap &&& 2) mem
      return ((if strcap ≠ 0 then T.upper c else c) :: done, rest)

/-- xmorph/capsheme.cpp:137-145: the loop over the parts. -/
def setLoop (T : CharTab) : Nat → Nat → List Byte → Option (List Byte)
  | 0, _, mem => some mem
  | _ + 1, _, [] => none
  | n + 1, scheme, c :: mem =>
    if c = 0 then some (c :: mem)
    else do
      let (done, rest) ← setPart T (scheme &&& 3) (c :: mem)
      match rest with
      | [] => none
      | d :: rest =>
        if T.ctype d = ctDlm then
          let r ← setLoop T n (scheme >>> 2) rest
          return done ++ d :: r
        else
          let r ← setLoop T n (scheme >>> 2) (d :: rest)
          return done ++ r

/-- xmorph/capsheme.cpp:102-147 `CapScheme::Set`, with a given length: the memory from `str` on
before and after.  Simplification: the part count (lines 108-118) is a count over the first `len`
bytes; fewer bytes than `len` in memory are a read outside it. -/
def capSet (T : CharTab) (mem : List Byte) (len min : Nat) : Option (List Byte) :=
  if mem.length < len then none
  else
    let nparts := 1 + ((mem.take len).filter fun b => T.ctype b = ctDlm).length
    setLoop T nparts (capWord nparts min) mem

end Libmorph
