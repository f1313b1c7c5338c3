import Verif.Model.Library
import Verif.Spec.Cpp
/-
What the run time is linked with: the arrays it names (lang-rus/libdict/mlmadefs.h:43-48, lang-eng/libdict/mlmadefs.h:43-46, lang-*/libprob/classtable.hpp:38-43) as they are
declared in source texts.
-/
namespace Libmorph
open Spec

/-- All declarations of several texts; `none`: one is not there or does not compile. -/
def declsOf (files : List (Option (List Byte))) : Option (List CDecl) := (files.mapM fun (t : Option (List Byte)) => t.bind cRead).map List.flatten

/-- The array of bytes with a name in a namespace (`[]`: the global one): there must be exactly one declaration of the name. -/
def linkBytes (nspace name : List Byte) (ds : List CDecl) : Option (List Byte) :=
  match ds.filter fun d => d.scope = scopeOf nspace ∧ d.name = name with
  | [d] => if d.bits = 8 ∧ d.array then some d.values else none
  | _ => none

/-- The same for arrays of `unsigned`. -/
def linkWords (nspace name : List Byte) (ds : List CDecl) : Option (List Nat) :=
  match ds.filter fun d => d.scope = scopeOf nspace ∧ d.name = name with
  | [d] => if d.bits = 32 ∧ d.array then some d.values else none
  | _ => none

/-- The Russian library: its images and the table of kinds of alternation. -/
def linkRus (nspace : List Byte) (files : List (Option (List Byte))) : Option (RusImages × List Byte) := do
  let ds ← declsOf files
  return (⟨← linkBytes nspace (cText "stemtree") ds, ← linkBytes nspace (cText "flexTree") ds, ← linkBytes nspace (cText "mxTables") ds,
    ← linkBytes nspace (cText "classmap") ds, ← linkBytes nspace (cText "lidstree") ds⟩, ← linkBytes nspace (cText "mixTypes") ds)

/-- The English library. -/
def linkEng (nspace : List Byte) (files : List (Option (List Byte))) : Option Images := do
  let ds ← declsOf files
  return ⟨← linkBytes nspace (cText "stemtree") ds, ← linkBytes nspace (cText "flexTree") ds, ← linkBytes nspace (cText "classmap") ds,
    ← linkBytes nspace (cText "lidstree") ds⟩

/-- A number that is no array. -/
def linkNumber (nspace name : List Byte) (ds : List CDecl) : Option Nat :=
  match ds.filter fun d => d.scope = scopeOf nspace ∧ d.name = name with
  | [⟨_, _, 32, false, [v]⟩] => some v
  | _ => none

/-- The fuzzy analyser, one file; `ClassNumber` says how many offsets there are. -/
def linkFuzzy (nspace : List Byte) (file : Option (List Byte)) : Option FuzzyImages := do
  let ds ← declsOf [file]
  let offsets ← linkWords nspace (cText "ClassOffset") ds
  if (← linkNumber nspace (cText "ClassNumber") ds) = offsets.length then
    return ⟨← linkBytes nspace (cText "ReverseDict") ds, offsets, ← linkBytes nspace (cText "ClassTables") ds⟩
  else none

end Libmorph
