import Verif.Spec.CodePage
/-
UTF-8 as a code page: the letters of 1251 that the dictionary uses.
-/
namespace Libmorph

/-- The Unicode number of a Cyrillic letter in code page 1251. -/
def cyrPoint (b : Byte) : Nat := if b = 0xa8 then 0x401 else if b = 0xb8 then 0x451 else 0x410 + (b - 0xc0)

/-- The bytes of 1251 taken into account: ASCII and the Russian letters. -/
def utf8Known (b : Byte) : Prop := b < 128 ∨ b = 0xa8 ∨ b = 0xb8 ∨ (0xc0 ≤ b ∧ b ≤ 0xff)

instance (b : Byte) : Decidable (utf8Known b) := inferInstanceAs (Decidable (_ ∨ _))

/-- The UTF-8 code of a byte of 1251; a question mark for what is not taken into account. -/
def utf8Enc (b : Byte) : List Byte :=
  if b < 128 then [b]
  else if b = 0xa8 ∨ b = 0xb8 ∨ (0xc0 ≤ b ∧ b ≤ 0xff) then [0xc0 + cyrPoint b / 64, 0x80 + cyrPoint b % 64]
  else [63]

/-- A letter from its number. -/
def cyrByte (p : Nat) : Option Byte :=
  if p = 0x401 then some 0xa8 else if p = 0x451 then some 0xb8
  else if 0x410 ≤ p ∧ p ≤ 0x44f then some (p - 0x410 + 0xc0) else none

/-- UTF-8 to 1251. -/
def utf8Dec : List Byte → Option (List Byte)
  | [] => some []
  | a :: l =>
    if a < 128 then (utf8Dec l).map (a :: ·)
    else match l with
      | [] => none
      | b :: l => (cyrByte ((a - 0xc0) * 64 + (b - 0x80))).bind fun c => (utf8Dec l).map (c :: ·)

/-- A conversion for UTF-8 that meets the contract. -/
def utf8Page : Page where
  into n w := (utf8Dec w).bind fun t => if t.length ≤ n then some t else none
  from1251 n p :=
    let o := inPage utf8Enc p
    if o.length < n then some (o.length, o ++ [0]) else if o.length = n then some (o.length, o) else none

end Libmorph
