import Verif.Spec.Russian
import Verif.Spec.Pipeline
import Verif.Spec.English
import Verif.Model.RusText
/-
Two orders of the same items.
-/
namespace Libmorph.Spec

/-- The second list is the first one in another order: neighbours change places, but never two that are in conflict. -/
inductive Moved {α : Type} (conf : α → α → Prop) : List α → List α → Prop
  | nil : Moved conf [] []
  | cons (a : α) {l l' : List α} : Moved conf l l' → Moved conf (a :: l) (a :: l')
  | swap (a b : α) (l : List α) : ¬ conf a b → Moved conf (a :: b :: l) (b :: a :: l)
  | trans {l₁ l₂ l₃ : List α} : Moved conf l₁ l₂ → Moved conf l₂ l₃ → Moved conf l₁ l₃

end Libmorph.Spec

namespace Libmorph
open Spec

/-- Different articles with the same stem, suffix and number. -/
def RusArticle.Clash (a b : RusArticle) : Prop := a.stem = b.stem ∧ a.post = b.post ∧ a.id = b.id ∧ a ≠ b

/-- The same for English articles, whose stems are compared in lower case. -/
def Article.Clash (a b : Article) : Prop := a.stem.map engTab.lower = b.stem.map engTab.lower ∧ a.post = b.post ∧ a.id = b.id ∧ a ≠ b

/-- Two dictionaries with the same tables and the same articles, in two orders; articles that clash stand in the same order. -/
structure TwoOrders (D D' : RusDict) : Prop where
  ftab : D'.ftab = D.ftab
  mtab : D'.mtab = D.mtab
  arts : Moved RusArticle.Clash D.arts D'.arts

/-- Different lines that say articles with the same stem, suffix and number. -/
def LinesClash (Z : RusSrc) (number : List Nat → Nat) (x y : List Nat) : Prop :=
  x ≠ y ∧ ∃ l u m v, SrcLineSays Z number x l u ∧ SrcLineSays Z number y m v ∧
    ∃ A ∈ l, ∃ B ∈ m, A.stem = B.stem ∧ A.post = B.post ∧ A.id = B.id

end Libmorph
