import Verif.Spec.MakeClasses
/-
What the class generator is to collect, merge and print.
-/
namespace Libmorph

/-! ### Collection -/

/-- The lexemes the tool takes, in order, with their classes and whether they are selected as samples: not banned and with a class. -/
def TakenAs (T : ClassTool) (low : Byte → Byte) (M : Morpho) (buffer : List Byte) (sel ban : Nat → Bool) : List Nat → List (LexClass × Bool) → Prop
  | [], cs => cs = []
  | x :: xs, cs =>
    (ban x = true ∧ TakenAs T low M buffer sel ban xs cs) ∨
    (ban x = false ∧ lexClass T low M buffer x = .done none ∧ TakenAs T low M buffer sel ban xs cs) ∨
    (ban x = false ∧ ∃ c cs', lexClass T low M buffer x = .done (some c) ∧ cs = (c, sel x) :: cs' ∧ TakenAs T low M buffer sel ban xs cs')

/-- The sample of a group of lexemes: that of the last selected one, without one that of the first. -/
def groupSample (cs : List (LexClass × Bool)) : List Byte :=
  match (cs.filter (·.2)).getLast? with
  | some c => c.1.sample
  | none => (cs.head?.map (·.1.sample)).getD []

/-- Two lexemes have the same endings and part of speech but different accent schemes. -/
def AccentsClash (cs : List (LexClass × Bool)) : Prop :=
  ∃ c ∈ cs, ∃ d ∈ cs, c.1.key = d.1.key ∧ c.1.suffix.accent ≠ d.1.suffix.accent

/-- What the map has for a group of lexemes with the same key: how many they are, their accent scheme, and for every two letters
at the end of the stem, in order, how many they are and a sample. -/
structure GroupVal (cs : List (LexClass × Bool)) (v : ClassVal) : Prop where
  count : v.modProd = cs.length
  accent : ∀ c ∈ cs, c.1.suffix.accent = v.schemeB
  order : v.charSet.Pairwise fun a b => a.suffix.s1 < b.suffix.s1 ∨ a.suffix.s1 = b.suffix.s1 ∧ a.suffix.s0 < b.suffix.s0
  samples : ∀ s, s ∈ v.charSet ↔ (∃ c ∈ cs, c.1.suffix = s.suffix) ∧ s.mdProd = (cs.filter fun c => c.1.suffix = s.suffix).length ∧
    s.sample = groupSample (cs.filter fun c => c.1.suffix = s.suffix)

/-- The map of the lexemes: a class for every key, once, with the value of the lexemes that have it. -/
structure Collects (cs : List (LexClass × Bool)) (m : ClassMap) : Prop where
  once : (m.map (·.1)).Nodup
  keys : ∀ k, k ∈ m.map (·.1) ↔ ∃ c ∈ cs, c.1.key = k
  vals : ∀ e ∈ m, GroupVal (cs.filter fun c => c.1.key = e.1) e.2

/-! ### Merging -/

/-- How many lexemes of a class have the two letters at the end of the stem. -/
def ClassVal.weight (v : ClassVal) (s0 s1 : Byte) : Nat :=
  ((v.charSet.filter fun s => s.suffix.s0 = s0 ∧ s.suffix.s1 = s1).map (·.mdProd)).sum

/-- The classes of `m` that become `k`. -/
def joined (φ : ClassKey → ClassKey) (m : ClassMap) (k : ClassKey) : ClassMap := m.filter fun e => φ e.1 = k

/-- The map after merging: every class of part of speech 1 has become one that has all its endings, every other is itself;
nothing has been lost or counted twice; of two classes of part of speech 1 none has all the endings of the other. -/
structure Merged (m m' : ClassMap) (φ : ClassKey → ClassKey) : Prop where
  once : (m'.map (·.1)).Nodup
  kept : ∀ k ∈ m'.map (·.1), k ∈ m.map (·.1) ∧ φ k = k
  into : ∀ k ∈ m.map (·.1), φ k ∈ m'.map (·.1) ∧ (φ k).1 = k.1 ∧ k.2.Sublist (φ k).2
  others : ∀ e, e.1.1 ≠ 1 → (e ∈ m' ↔ e ∈ m)
  count : ∀ e ∈ m', e.2.modProd = ((joined φ m e.1).map (·.2.modProd)).sum
  weight : ∀ e ∈ m', ∀ s0 s1, e.2.weight s0 s1 = ((joined φ m e.1).map fun d => d.2.weight s0 s1).sum
  accent : ∀ e ∈ m', ∀ d ∈ joined φ m e.1, d.2.schemeB = e.2.schemeB
  order : ∀ e ∈ m', e.2.charSet.Pairwise fun a b => a.suffix.s1 < b.suffix.s1 ∨ a.suffix.s1 = b.suffix.s1 ∧ a.suffix.s0 < b.suffix.s0
  samples : ∀ e ∈ m', ∀ s ∈ e.2.charSet, ∃ d ∈ joined φ m e.1, ∃ t ∈ d.2.charSet, t.suffix = s.suffix ∧ t.sample = s.sample
  final : ∀ k ∈ m'.map (·.1), ∀ k' ∈ m'.map (·.1), k.1 = 1 → k'.1 = 1 → k'.2.Sublist k.2 → k' = k

/-- What the tool's maps are like: every class once, endings in order; the two letters in order, each once, with the accent scheme of the
class; the weight is the sum; classes of part of speech 1 have the scheme "a". -/
structure MapOk (m : ClassMap) : Prop where
  once : (m.map (·.1)).Nodup
  forms : ∀ e ∈ m, e.1.2.Pairwise fun a b => a.1 < b.1 ∨ a.1 = b.1 ∧ bytesLt b.2 a.2 = false
  order : ∀ e ∈ m, e.2.charSet.Pairwise fun a b => a.suffix.s1 < b.suffix.s1 ∨ a.suffix.s1 = b.suffix.s1 ∧ a.suffix.s0 < b.suffix.s0
  accent : ∀ e ∈ m, ∀ s ∈ e.2.charSet, s.suffix.accent = e.2.schemeB
  total : ∀ e ∈ m, e.2.modProd = (e.2.charSet.map (·.mdProd)).sum
  plain : ∀ e ∈ m, e.1.1 = 1 → e.2.schemeB = false

/-- The class `c` takes up the class `s`: both are of part of speech 1, `c` has all the endings of `s`, and of the other classes of which
`c` has all the endings none has more than `s`. -/
structure TakesUp (ks ks' : List ClassKey) (c s : ClassKey) : Prop where
  taker : c ∈ ks ∧ c.1 = 1
  taken : s ∈ ks ∧ s.1 = 1 ∧ s ≠ c ∧ s.2.Sublist c.2
  longest : ∀ k ∈ ks, k.1 = 1 → k ≠ c → k.2.Sublist c.2 → k.2.length ≤ s.2.length
  rest : ks' = ks.filter (· ≠ s)

/-! ### Selection -/

/-- The weight of a class, of classes. -/
def mapWeight (m : ClassMap) : Nat := (m.map (·.2.modProd)).sum

end Libmorph
