import Verif.Model.EngRun
/-
Sets of bytes: xmorph/charlist.h.
-/
namespace Libmorph

/-- `Charset`, charlist.h:37-48: eight 32-bit words, all zero at first. -/
def charsetEmpty : List Nat := List.replicate 8 0

/-- `Charset::operator()( uint8_t )`, charlist.h:51-52. -/
def charsetAdd (u : List Nat) (c : Byte) : List Nat := u.modify (c / 32) fun w => w ||| (1 <<< (c % 32))

/-- `Charset::operator()( out )`, charlist.h:62-68: the bits of one word, from bit `b` on, `n` of them.
`Except.error`: the collector is full. -/
def charsetBits (cap o w : Nat) : Nat → Nat → List Byte → Int → Except (List Byte) (List Byte × Int)
  | 0, _, out, nc => .ok (out, nc)
  | n + 1, b, out, nc =>
    if w &&& (1 <<< b) ≠ 0 then
      match collAppend cap out [(o * 32 + b) % 256] with
      | some out => charsetBits cap o w n (b + 1) out (nc + 1)
      | none => .error out
    else charsetBits cap o w n (b + 1) out nc

/-- charlist.h:60-61: the words, from number `o` on. -/
def charsetWords (cap : Nat) : Nat → List Nat → List Byte → Int → Int × List Byte
  | _, [], out, nc => (nc, out)
  | o, w :: ws, out, nc =>
    if w ≠ 0 then
      match charsetBits cap o w 32 0 out nc with
      | .ok (out, nc) => charsetWords cap (o + 1) ws out nc
      | .error out => (-1, out)
    else charsetWords cap (o + 1) ws out nc

/-- `Charset::operator()( out )`, charlist.h:55-71, into a collector of `cap` bytes: the result and what was
written. -/
def charsetList (cap : Nat) (u : List Nat) : Int × List Byte := charsetWords cap 0 u [] 0

end Libmorph
