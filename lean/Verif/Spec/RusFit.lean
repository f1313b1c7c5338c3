import Verif.Model.RusText
import Verif.Spec.RusText
/-
When the tables the compiler is given are those of a source.
-/
namespace Libmorph.Spec

/-- The alternation table at the reference `o` is that of the alternants `alts`: there is one basic alternant, and fewer than 128 in
all. -/
structure AltFit (mtab : List Nat) (alts : List (List Nat × Nat)) (o : Nat) : Prop where
  ref : o ≠ 0
  ok : MixOk alts
  few : alts.length < 128
  basic : ∃ x, (x, 0) ∈ alts ∧ ∀ y, (y, 0) ∈ alts → y = x
  at_ : ∃ rest, mtab.drop o = mixSer (mixOf alts) ++ rest

/-- The tables the compiler is given (`T`) are those of the source `S`, and fit for cutting the headwords. -/
structure RusFit (T : RusTabs) (S : RusSource) : Prop where
  ftab : T.ftab = S.ftab
  bytes : ∀ b ∈ S.ftab, b < 256
  endings : ∀ name, S.endings name = mapFind T.findex name
  refs : ∀ name t, S.endings name = some t → 0 < t ∧ t < 65536
  mixes : ∀ name, S.mixes name = (mapFind T.mindex name).getD []
  alts : ∀ name cond o, (cond, o) ∈ S.mixes name → AltFit T.mtab (S.alts o) o
  shapes : ∀ dies type ind pos plural base t, TypeIs dies type pos plural → pos < 48 → S.endings (tableName type ind) = some t →
    HeadShape S.ftab t pos plural base
  colons : ∀ dies type ind pos plural t, TypeIs dies type pos plural → IsVerb pos → S.endings (tableName type ind) = some t → 58 ∉ ind

end Libmorph.Spec
