import Verif.Props.C79Dump
import Verif.Props.C46
/-
C79: cases.
-/
namespace Libmorph
open Spec

/-- The sample dictionary can be dumped. -/
theorem rusSample_printable : RusPrintable rusSample where
  posts := by decide
  words := by decide
  alts := fun a _ _ => (by decide : ∀ p ∈ rusSampleAlts, 10 ∉ p.1)
  endings := by
    intro a ha hinf e g fl he
    have : a.tfoffs ∈ [1, 31] := by
      have key : ∀ a ∈ rusSample.arts, a.Inflected → a.tfoffs ∈ [1, 31] := by decide
      exact key a ha hinf
    intro k
    have := (rusSample_flex.1 _ this).endings e g fl he 10 k
    revert this
    decide

example : ∃ F, DumpOk (rusDumpApi (rusSampleState.images rusSample.mtab) (fun id => List.replicate (16 - (lexkey id).length) 0) (fun _ _ => List.replicate 256 7)) F := by
  obtain ⟨F, h, _⟩ := C79_russian rusSample_ok rusSample_ids (fun id => List.replicate (16 - (lexkey id).length) 0) (fun _ _ => List.replicate 256 7)
    (fun id => by
      have : (lexkey id).length ≤ 16 := by simp only [lexkey]; split <;> (try split) <;> (try split) <;> (try split) <;> simp
      rw [List.length_replicate]; omega) (fun _ _ => by rw [List.length_replicate]) rusSample_printable
  exact ⟨F, h⟩

/-- The line of lexeme 5: "5\tножницы|0a/|0b/ам|0c/ами|0f/ах|10". -/
example : (formMap fun f => rusWrapBuildForm (rusSampleState.images rusSample.mtab) (List.replicate 15 0) (List.replicate 256 7) 5 f).bind (fun m => lexLine 5 (cutMap m)) =
    some [53, 9, 237, 238, 230, 237, 232, 246, 251, 124, 48, 97, 47, 124, 48, 98, 47, 224, 236, 124, 48, 99, 47, 224, 236, 232, 124, 48, 102, 47, 224, 245, 124, 49, 48] := by decide +kernel

/-- One line left out, one added. -/
example : dumpDiff 10 [[97], [98], [99]] [[97], [99], [100]] [] = some [.left [98], .right [100]] := by decide +kernel

/-- At the end of one list an empty line is reported for it. -/
example : dumpDiff 10 [[97], [98]] [[97]] [] = some [.left [98], .right []] := by decide +kernel

example : ∀ n, dumpDiff n [[97], [98]] [[98], [97]] [] = none := C79_hangs (by decide) (by decide) (by decide)

end Libmorph
