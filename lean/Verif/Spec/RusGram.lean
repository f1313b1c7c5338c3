import Verif.Model.RusGram
/-
What the Russian form ids mean: the grammatical categories, their numbering and their bit layout
(rus.h:50-105), written as plain tables, without the functions of grammap.h.
-/
namespace Libmorph.Spec

/-- The eight columns of a declension: nominative, genitive, dative, accusative of inanimates,
accusative of animates, instrumental, prepositional, short form. -/
abbrev Col := Fin 8

/-- masculine, feminine, neuter, plural. -/
abbrev Gend := Fin 4

/-- A verb form. -/
inductive VerbForm where
  | infinitive (ret : Bool)
  | imperative (ret plural : Bool)
  | future (person : Fin 3) (ret plural : Bool)
  | present (person : Fin 3) (ret plural : Bool)
  | past (g : Gend) (ret : Bool)
  | active (past ret : Bool) (g : Gend) (c : Col)
  | passive (past : Bool) (g : Gend) (c : Col)
  | gerund (past ret : Bool)
deriving DecidableEq, Repr

/-- A form of an adjective (or participle-like word). -/
inductive AdjForm where
  | decl (ret : Bool) (g : Gend) (c : Col)
  | comparative
  | adverb
deriving DecidableEq, Repr

/-- A noun form: the columns 0-4 as above, then the remaining case codes; a plural has one code less. -/
inductive NounForm where
  | singular (c : Fin 9)
  | plural (c : Fin 8)
deriving DecidableEq, Repr

/-- The numbering of the verb forms, 0 .. 233. -/
def VerbForm.id : VerbForm → Nat
  | .infinitive r => r.toNat
  | .imperative r p => 2 + 2 * r.toNat + p.toNat
  | .future n r p => 6 + 4 * n + 2 * r.toNat + p.toNat
  | .present n r p => 18 + 4 * n + 2 * r.toNat + p.toNat
  | .past g r => 128 + 4 * r.toNat + g
  | .active false r g c => 30 + 32 * r.toNat + 8 * g + c
  | .active true r g c => 136 + 32 * r.toNat + 8 * g + c
  | .passive false g c => 94 + 8 * g + c
  | .passive true g c => 200 + 8 * g + c
  | .gerund false r => 126 + r.toNat
  | .gerund true r => 232 + r.toNat

/-- The numbering of the adjective forms, 0 .. 65. -/
def AdjForm.id : AdjForm → Nat
  | .decl r g c => 32 * r.toNat + 8 * g + c
  | .comparative => 64
  | .adverb => 65

/-- The numbering of the noun forms, 0 .. 8 and 10 .. 17. -/
def NounForm.id : NounForm → Nat
  | .singular c => c
  | .plural c => 10 + c

/-- The bit of the reflexive form. -/
def retBit (r : Bool) : Nat := if r then 0x8000 else 0

/-- Gender or number. -/
def gendBits : Gend → Nat
  | 0 => 0x0200 | 1 => 0x0400 | 2 => 0x0600 | 3 => 0x0800

/-- Case code of the columns of nouns. -/
def caseBits (c : Nat) : Nat :=
  match c with
  | 0 => 0 | 1 => 0x1000 | 2 => 0x2000 | 3 => 0x3000 | 4 => 0x3000 | 5 => 0x4000 | 6 => 0x5000 | 7 => 0x6000
  | _ => 0x7000

/-- Case code, or the short form, of the columns of adjectives. -/
def colBits (c : Col) : Nat := if c = 7 then 0x0100 else caseBits c

/-- Animacy: both, except in the two accusatives. -/
def colFlags (c : Nat) : Nat := if c = 3 then 2 else if c = 4 then 1 else 3

/-- Person. -/
def personBits (n : Fin 3) : Nat := 8 * (n + 1)

/-- Number of a verb. -/
def plBit (p : Bool) : Nat := if p then 0x0800 else 0

/-- The description of a verb form. -/
def VerbForm.desc : VerbForm → FlexInfo
  | .infinitive r => ⟨1 + retBit r, 3⟩
  | .imperative r p => ⟨2 + retBit r + plBit p, 3⟩
  | .future n r p => ⟨3 + personBits n + retBit r + plBit p, 3⟩
  | .present n r p => ⟨4 + personBits n + retBit r + plBit p, 3⟩
  | .past g r => ⟨5 + gendBits g + retBit r, 3⟩
  | .active t r g c => ⟨(if t then 5 else 4) + 0x20 + gendBits g + colBits c + retBit r, colFlags c⟩
  | .passive t g c => ⟨(if t then 5 else 4) + 0x40 + gendBits g + colBits c, colFlags c⟩
  | .gerund t r => ⟨(if t then 5 else 4) + 0x60 + retBit r, 3⟩

/-- The description of an adjective form. -/
def AdjForm.desc : AdjForm → FlexInfo
  | .decl r g c => ⟨gendBits g + colBits c + retBit r, colFlags c⟩
  | .comparative => ⟨0x80, 3⟩
  | .adverb => ⟨0x40, 3⟩

/-- The description of a noun form. -/
def NounForm.desc : NounForm → FlexInfo
  | .singular c => ⟨caseBits c, colFlags c⟩
  | .plural c => ⟨0x0800 + caseBits c, colFlags c⟩

/-- The animacy flags `fl` of a table element put it into column `c`: an accusative marked inanimate
belongs to column 3 whatever else it is marked, one marked animate only to column 4; the other
columns do not look at the flags. -/
def InColumn (c : Nat) (fl : Nat) : Prop :=
  if c = 3 then fl &&& 2 ≠ 0 else if c = 4 then fl &&& 2 = 0 ∧ fl &&& 1 ≠ 0 else fl &&& 3 ≠ 0

instance (c fl : Nat) : Decidable (InColumn c fl) := by unfold InColumn; infer_instance

/-- The column of a form (0 when the form is not declined). -/
def VerbForm.col : VerbForm → Nat
  | .active _ _ _ c => c
  | .passive _ _ c => c
  | _ => 0
def AdjForm.col : AdjForm → Nat
  | .decl _ _ c => c
  | _ => 0
def NounForm.col : NounForm → Nat
  | .singular c => c
  | .plural c => c

/-- Verbs, by part of speech (1-6; 0 is not used). -/
def VerbPos (wdinfo : Nat) : Prop := wdinfo % 64 ≤ 6
/-- Adjectives, pronominal adjectives, ordinals, surnames. -/
def AdjPos (wdinfo : Nat) : Prop := wdinfo % 64 ∈ [25, 26, 27, 28, 34, 36, 42]
/-- All others are declined as nouns. -/
def NounPos (wdinfo : Nat) : Prop := ¬ VerbPos wdinfo ∧ ¬ AdjPos wdinfo
/-- Plural-only words. -/
def PluralOnly (wdinfo : Nat) : Prop := wdinfo / 64 % 2 = 1

end Libmorph.Spec
