/-
Byte-level primitives of the dictionary images.

Models `xmorph/typedefs.h` (fragment, getserial, getword16, lexkeylen), `tools/buildmorph.h`
(lexkeybuf) and the part of the external `mtc` serializer the compiler relies on.
-/
namespace Libmorph

/-- `unsigned char` / `uint8_t`.  Simplification: a plain `Nat`; range hypotheses (`< 256`) are
stated where the C++ type matters. -/
macro "Byte" : term => `(Nat)

/-- `size_t` is 64 bits wide. -/
def sizeMod : Nat := 2 ^ 64

/-- xmorph/typedefs.h:57-89 `struct fragment`: `mem` is the addressable memory from `str` on (it
may be longer than the fragment: the caller's buffer continues), `len` is the `size_t` length. -/
structure Frag where
  mem : List Byte
  len : Nat
deriving DecidableEq, Repr

/-- xmorph/typedefs.h:66 `fragment::empty` (the pointer is never null here). -/
def Frag.isEmpty (f : Frag) : Bool := f.len == 0

/-- xmorph/typedefs.h:74 `fragment::next`: `{ str + 1, len - 1 }`; `len - 1` wraps on an empty
fragment. -/
def Frag.next (f : Frag) : Frag := ⟨f.mem.drop 1, (f.len + (sizeMod - 1)) % sizeMod⟩

/-- The bytes the fragment denotes. -/
def Frag.bytes (f : Frag) : List Byte := f.mem.take f.len

/-- xmorph/typedefs.h:108-117 `getserial`, the loop.  `k` is `nshift`, `acc` is `serial`.
A shift by 32 bits or more and a read outside the image are undefined behaviour (`none`). -/
def getserialLoop : List Byte → Nat → Nat → Option (Nat × List Byte)
  | [], _, _ => none
  | b :: p, k, acc =>
    if 32 ≤ 7 * k then none
    else
      let acc' := acc ||| (((b % 128) <<< (7 * k)) % 2 ^ 32)
      if 128 ≤ b then getserialLoop p (k + 1) acc' else some (acc', p)

/-- xmorph/typedefs.h:108-117 `getserial( const uint8_t*& )`: returns the number and the advanced
pointer. -/
def getserial (p : List Byte) : Option (Nat × List Byte) := getserialLoop p 0 0

/-- xmorph/typedefs.h:119-125 `getword16`. -/
def getword16 : List Byte → Option (Nat × List Byte)
  | lo :: hi :: p => some (lo ||| (hi <<< 8), p)
  | _ => none

/-- Read one byte (`*p++`). -/
def getbyte : List Byte → Option (Byte × List Byte)
  | b :: p => some (b, p)
  | [] => none

/-- External `mtc` `::Serialize( o, unsigned )`, the writer counterpart of `getserial`
(contrib/mtc is not part of the tree; assumed: 7-bit groups, least significant first, the top
bit set on all but the last group). -/
def putserial (n : Nat) : List Byte :=
  if n < 128 then [n] else (n % 128 + 128) :: putserial (n / 128)
termination_by n
decreasing_by omega

/-- External `mtc` `::GetBufLen( unsigned )`. -/
def serialLen (n : Nat) : Nat :=
  if n < 128 then 1 else serialLen (n / 128) + 1
termination_by n
decreasing_by omega

/-- Two single byte stores `char(w)`, `char(w >> 8)`: lang-eng/libdict/buildic/makeeng.cpp:266-270
and tools/wordtree.h:48-60. -/
def putword16 (w : Nat) : List Byte := [w % 256, (w / 256) % 256]

/-- xmorph/typedefs.h:127-140 `lexkeylen`, the key the run-time builds for a lexeme id. -/
def lexkey (id : Nat) : List Byte :=
  if id < 2 ^ 8 then [id % 256]
  else if id < 2 ^ 16 then [(id >>> 8) % 256, id % 256]
  else if id < 2 ^ 24 then [(id >>> 16) % 256, (id >>> 8) % 256, id % 256]
  else [(id >>> 24) % 256, (id >>> 16) % 256, (id >>> 8) % 256, id % 256]

/-- tools/buildmorph.h:41-54 `lexkeybuf`, the key the compiler builds for a lexeme id.  The last
branch really stores three bytes only (the `>> 16` byte is missing in the source). -/
def lexkeybuf (id : Nat) : List Byte :=
  if id < 2 ^ 8 then [id % 256]
  else if id < 2 ^ 16 then [(id >>> 8) % 256, id % 256]
  else if id < 2 ^ 24 then [(id >>> 16) % 256, (id >>> 8) % 256, id % 256]
  else [(id >>> 24) % 256, (id >>> 8) % 256, id % 256]

end Libmorph
