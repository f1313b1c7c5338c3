import Verif.Lemmas.TabLine
import Verif.Props.C57
import Verif.Props.C58
/-
C59: the source files of alternation tables.
-/
namespace Libmorph
open Spec

/-- The lines of a source, as they are compiled. -/
def ichRead (conv : List Byte → List Byte) (fs : List Byte → Option (List Byte)) (depth : Nat) (path : List Byte) : Option (List IchLine) :=
  ((tabFile ichCmds conv fs depth path).bind fun l => l.mapM fun p => p.2.mapM (ichLine p.1)).map List.flatten

theorem ichMain_eq (conv : List Byte → List Byte) (fs : List Byte → Option (List Byte)) (depth : Nat) (path : List Byte) :
    ichMain conv fs depth path = (ichRead conv fs depth path).bind ichCompile := by
  rw [ichMain, ichRead, Option.bind_map]; rfl

theorem ichRead_iff (conv : List Byte → List Byte) (fs : List Byte → Option (List Byte)) (depth : Nat) (path : List Byte) (src : List IchLine) :
    ichRead conv fs depth path = some src ↔ ∃ l ls, tabFile ichCmds conv fs depth path = some l ∧
      List.Forall₂ (fun p x => List.Forall₂ (AltText p.1) p.2 x) l ls ∧ src = ls.flatten := by
  rw [ichRead, Option.map_eq_some_iff]
  simp only [Option.bind_eq_some_iff, mapM_forall₂, ichLine_iff]
  constructor
  · rintro ⟨ls, ⟨l, h1, h2⟩, rfl⟩; exact ⟨l, ls, h1, h2, rfl⟩
  · rintro ⟨l, ls, h1, h2, rfl⟩; exact ⟨ls, ⟨l, h1, h2⟩, rfl⟩

/-- C59.  The lines the compiler reads from a source are those the source says. -/
theorem C59_source {conv : List Byte → List Byte} {fs : List Byte → Option (List Byte)} (hr : Readable conv fs) (path : List Byte)
    (src : List IchLine) : (∃ depth, ichRead conv fs depth path = some src) ↔ IchSource conv fs path src := by
  simp only [ichRead_iff, IchSource, ← ichCmds_eq]
  constructor
  · rintro ⟨depth, l, ls, h1, h2, rfl⟩
    exact ⟨l, ls, (tabFile_iff ichCmds_good hr path l).1 ⟨depth, h1⟩, h2, rfl⟩
  · rintro ⟨l, ls, h1, h2, rfl⟩
    obtain ⟨depth, h⟩ := (tabFile_iff ichCmds_good hr path l).2 h1
    exact ⟨depth, l, ls, h, h2, rfl⟩

/-- C59.  A source says one thing. -/
theorem C59_unique {conv : List Byte → List Byte} {fs : List Byte → Option (List Byte)} (hr : Readable conv fs) {path : List Byte}
    {src src' : List IchLine} (h : IchSource conv fs path src) (h' : IchSource conv fs path src') : src = src' := by
  obtain ⟨d, e⟩ := (C59_source hr path src).2 h
  obtain ⟨d', e'⟩ := (C59_source hr path src').2 h'
  have mono : ∀ a b x, a ≤ b → ichRead conv fs a path = some x → ichRead conv fs b path = some x := by
    intro a b x hab hx
    rw [ichRead_iff] at hx ⊢
    obtain ⟨l, ls, h1, h2, rfl⟩ := hx
    exact ⟨l, ls, tabFile_mono _ _ _ a b path l hab h1, h2, rfl⟩
  rcases Nat.le_total d d' with hd | hd
  · rw [mono _ _ _ hd e] at e'; cases e'; rfl
  · rw [mono _ _ _ hd e'] at e; cases e; rfl

/-- C59.  From the text to the image: the index has under every name exactly the lines that the source says, in order. -/
theorem C59_image {conv : List Byte → List Byte} {fs : List Byte → Option (List Byte)} (hr : Readable conv fs) {depth : Nat} {path : List Byte}
    {img : List Byte} {idx : List (List Byte × List (List Byte × Nat))} (h : ichMain conv fs depth path = some (img, idx)) {src : List IchLine}
    (hs : IchSource conv fs path src) (hsp : ichSpace src < 65530) (hn : SameNames src) :
    (∀ name, (∃ es, (name, es) ∈ idx) ↔ ∃ l ∈ src, Named l.header name) ∧
      ∀ name es, (name, es) ∈ idx → List.Forall₂ (fun e l => e.1 = l.cond ∧ StandsAt img e.2 l) es (linesOf src name) := by
  rw [ichMain_eq, Option.bind_eq_some_iff] at h
  obtain ⟨src', h1, h2⟩ := h
  cases C59_unique hr hs ((C59_source hr path src').1 ⟨depth, h1⟩)
  exact ⟨fun name => (C57_names h2 name).1, fun name es he => C57_exact h2 hsp hn he⟩

/-- C59.  The compiler fails on nothing else. -/
theorem C59_compiles {conv : List Byte → List Byte} {fs : List Byte → Option (List Byte)} (hr : Readable conv fs) {path : List Byte}
    {src : List IchLine} (hs : IchSource conv fs path src) (hn : SameNames src) (hh : ∀ l ∈ src, ∃ k, Named l.header k)
    (hc : ∀ l ∈ src, l.cond.length < 16) : ∃ depth img idx, ichMain conv fs depth path = some (img, idx) := by
  obtain ⟨d, e⟩ := (C59_source hr path src).2 hs
  obtain ⟨img, idx, h⟩ := C57_compiles src hn hh hc
  exact ⟨d, img, idx, by rw [ichMain_eq, e]; exact h⟩

/-- C59, a table without a line: it is compiled, and its names are nowhere (the compiler of ending tables rejects such a table). -/
theorem C59_empty_counterexample : ∃ file, ichMain id (fun p => if p = ru "a" then some file else none) 1 (ru "a") = some (ru "interc", []) ∧
    tfcMain id (fun p => if p = ru "a" then some file else none) 1 (ru "a") = none :=
  ⟨ru ".table x\n{\n}\n", by decide +kernel, by decide +kernel⟩

/-! ### A case -/

def altFile : List Byte := ru "// a\n.таблица м 1*a, мо 1*a\n{\n  ге ем йм // x\n  о, ''  , т\n}\n.table п\n{\n о ен н нн\n}\n"
def altFiles : List Byte → Option (List Byte) := fun path => if path = ru "a" then some altFile else none

example : ichRead id altFiles 1 (ru "a") = some [⟨ru "м 1*a, мо 1*a", ru "ге", [ru "ем", ru "йм"]⟩, ⟨ru "м 1*a, мо 1*a", ru "о", [[], ru "т"]⟩,
    ⟨ru "п", ru "о", [ru "ен", ru "н", ru "нн"]⟩] := by decide +kernel

theorem altFiles_readable : Readable id altFiles := by
  refine ⟨fun path file h => ?_, fun _ h => h⟩
  rw [altFiles] at h
  split at h
  · rw [← Option.some.inj h]
    exact ⟨[ru "// a", ru ".таблица м 1*a, мо 1*a", ru "{", ru "  ге ем йм // x", ru "  о, ''  , т", ru "}", ru ".table п", ru "{", ru " о ен н нн", ru "}"],
      by decide +kernel, Or.inl (by decide +kernel)⟩
  · simp at h

example : IchSource id altFiles (ru "a") [⟨ru "м 1*a, мо 1*a", ru "ге", [ru "ем", ru "йм"]⟩, ⟨ru "м 1*a, мо 1*a", ru "о", [[], ru "т"]⟩,
    ⟨ru "п", ru "о", [ru "ен", ru "н", ru "нн"]⟩] := (C59_source altFiles_readable _ _).1 ⟨1, by decide +kernel⟩

end Libmorph
