import Verif.Spec.Commands
/-
What the command line of compile-dict means.
-/
namespace Libmorph.Spec

/-- A switch of compile-dict: -ns=name, -nspace=name. -/
def IsNamespace (v a : List Nat) : Prop := a = Libmorph.litBytes "-ns=" ++ v ∨ a = Libmorph.litBytes "-nspace=" ++ v

/-- Arguments that compile-dict takes: every switch sets the namespace, and there are two names at most. -/
structure CompileTakes (args : List (List Nat)) : Prop where
  switches : ∀ a ∈ args, isSwitch a = true → ∃ v, IsNamespace v a
  names : (namesOf args).length ≤ 2

/-- The namespace of the last switch; without one, the default. -/
def NamespaceOf (args : List (List Nat)) (default_ v : List Nat) : Prop :=
  (∃ pre a post, args = pre ++ a :: post ∧ IsNamespace v a ∧ ∀ b ∈ post, isSwitch b = false) ∨ ((∀ b ∈ args, isSwitch b = false) ∧ v = default_)

/-- A call of compile-dict that says what to do. -/
structure CompileCall (args : List (List Nat)) (source output nspace : List Nat) : Prop where
  takes : CompileTakes args
  names : namesOf args = [source, output]
  nspaceIs : NamespaceOf args (Libmorph.litBytes "LIBMORPH_NAMESPACE") nspace

end Libmorph.Spec
