import Verif.Model.Ich
import Verif.Spec.Tfc
/-
What the sources of alternation tables mean.  Of the model the record `IchLine` is used.
-/
namespace Libmorph.Spec
open Classical in
/-- The lines of the table `name`, in order. -/
noncomputable def linesOf (src : List IchLine) (name : List Nat) : List IchLine := src.filter fun l => decide (Named l.header name)

/-- Headers that share a name have the same names. -/
def SameNames (src : List IchLine) : Prop :=
  ∀ l ∈ src, ∀ l' ∈ src, ∀ n, Named l.header n → Named l'.header n → ∀ m, Named l.header m ↔ Named l'.header m

/-- At the reference `o` of the image stands the alternation table of the line: its alternants with their levels. -/
def StandsAt (img : List Nat) (o : Nat) (l : IchLine) : Prop := ∃ rest, img.drop o = mixSer (mixOf l.steps.zipIdx) ++ rest

/-- The room the tables take at most. -/
def ichSpace (src : List IchLine) : Nat := (src.map fun l => 1 + (l.steps.map fun s => 1 + s.length).sum).sum

end Libmorph.Spec
