import Verif.Lemmas.TabLine
import Verif.Props.C56
/-
C58: the source files of ending tables.
-/
namespace Libmorph
open Spec

/-- The tables of a source, as they are compiled. -/
def tfcRead (conv : List Byte → List Byte) (fs : List Byte → Option (List Byte)) (depth : Nat) (path : List Byte) : Option (List (List Byte × List FxItem)) :=
  (tabFile tfcCmds conv fs depth path).bind fun l => l.mapM tfcTable

theorem tfcRead_says {conv : List Byte → List Byte} {fs : List Byte → Option (List Byte)} (hr : Readable conv fs) {depth : Nat} {path : List Byte}
    {src : List (List Byte × List FxItem)} (h : tfcRead conv fs depth path = some src) : TfcSource conv fs path src := by
  rw [tfcRead, Option.bind_eq_some_iff] at h
  obtain ⟨l, h1, h2⟩ := h
  rw [mapM_forall₂] at h2
  refine ⟨l, ?_, h2.imp fun p q => (tfcTable_iff p q).1⟩
  rw [← tfcCmds_eq]
  exact (tabFile_iff tfcCmds_good hr path l).1 ⟨depth, h1⟩

/-- C58.  The tables the compiler reads from a source - with however many files open at once - are those the source says. -/
theorem C58_source {conv : List Byte → List Byte} {fs : List Byte → Option (List Byte)} (hr : Readable conv fs) (path : List Byte)
    (src : List (List Byte × List FxItem)) : (∃ depth, tfcRead conv fs depth path = some src) ↔ TfcSource conv fs path src := by
  constructor
  · rintro ⟨depth, h⟩
    exact tfcRead_says hr h
  · rintro ⟨l, h1, h2⟩
    rw [← tfcCmds_eq] at h1
    obtain ⟨depth, h⟩ := (tabFile_iff tfcCmds_good hr path l).2 h1
    refine ⟨depth, ?_⟩
    rw [tfcRead, h, Option.bind_some, mapM_forall₂]
    exact h2.imp fun p q => (tfcTable_iff p q).2

/-- C58.  A source says one thing. -/
theorem C58_unique {conv : List Byte → List Byte} {fs : List Byte → Option (List Byte)} (hr : Readable conv fs) {path : List Byte}
    {src src' : List (List Byte × List FxItem)} (h : TfcSource conv fs path src) (h' : TfcSource conv fs path src') : src = src' := by
  obtain ⟨d, e⟩ := (C58_source hr path src).2 h
  obtain ⟨d', e'⟩ := (C58_source hr path src').2 h'
  have mono : ∀ a b x, a ≤ b → tfcRead conv fs a path = some x → tfcRead conv fs b path = some x := by
    intro a b x hab hx
    rw [tfcRead, Option.bind_eq_some_iff] at hx
    obtain ⟨l, h1, h2⟩ := hx
    rw [tfcRead, tabFile_mono _ _ _ a b path l hab h1]
    exact h2
  rcases Nat.le_total d d' with hd | hd
  · rw [mono _ _ _ hd e] at e'; cases e'; rfl
  · rw [mono _ _ _ hd e'] at e; cases e; rfl

theorem BodySays.words {g : GramDesc} {ts : List (List Byte)} {l : List FxItem} (h : BodySays g ts l) : ∀ x ∈ l, x.gr < 65536 ∧ x.flags < 256 := by
  induction h with
  | nil => simp
  | desc _ _ ih => exact ih
  | item _ hi _ ih =>
    intro y hy
    rcases List.mem_cons.1 hy with rfl | hy
    · obtain ⟨_, _, _, _, _, _, _, _, _, _, g', _, _, _, _, _, _, _, _, _, hw, hf⟩ := hi
      have := word_lt g'
      have := bits_lt g'
      refine ⟨by omega, ?_⟩
      rcases hf with ⟨_, h, _⟩ | ⟨_, _, h, _⟩ | ⟨_, _, h, _⟩ <;> omega
    · exact ih y hy

theorem TfcSource.words {conv : List Byte → List Byte} {fs : List Byte → Option (List Byte)} {path : List Byte} {src : List (List Byte × List FxItem)}
    (h : TfcSource conv fs path src) : ∀ p ∈ src, ∀ x ∈ p.2, x.gr < 65536 ∧ x.flags < 256 := by
  obtain ⟨l, _, h⟩ := h
  intro p hp x hx
  obtain ⟨q, _, _, _, h3⟩ := forall₂_mem_right h hp
  exact BodySays.words h3 x hx

/-- C58.  From the text to the image: the image has under every name exactly the endings that the source says. -/
theorem C58_image {conv : List Byte → List Byte} {fs : List Byte → Option (List Byte)} (hr : Readable conv fs) {depth : Nat} {path : List Byte}
    {img : List Byte} {idx : List (List Byte × Nat)} (h : tfcMain conv fs depth path = some (img, idx)) {src : List (List Byte × List FxItem)}
    (hs : TfcSource conv fs path src) (hl : ∀ p ∈ src, p.2.length < 256) (ht : ∀ p ∈ src, ∀ l ∈ p.2, l.tail.length < 128) :
    (∀ name, (∃ o, (name, o) ∈ idx) ↔ ∃ p ∈ src, Named p.1 name) ∧
      ∀ name o, (name, o) ∈ idx → ∀ w g fl, Ending img o w g fl ↔ SrcEnding src name w g fl := by
  rw [tfcMain, Option.bind_eq_some_iff] at h
  obtain ⟨src', h1, h2⟩ := h
  cases C58_unique hr hs (tfcRead_says hr h1)
  exact ⟨fun name => (C56_names h2 name).1, fun name o ho w g fl => C56_endings h2 ⟨hl, ht, TfcSource.words hs⟩ ho w g fl⟩

/-- C58.  The compiler fails on nothing else: a source whose references have tables and that is not too big is compiled. -/
theorem C58_compiles {conv : List Byte → List Byte} {fs : List Byte → Option (List Byte)} (hr : Readable conv fs) {path : List Byte}
    {src : List (List Byte × List FxItem)} (hs : TfcSource conv fs path src) (hrf : ∀ p ∈ src, ∀ l ∈ p.2, Continues l → ∃ q ∈ src, Named q.1 l.next)
    (ht : ∀ p ∈ src, ∀ l ∈ p.2, l.tail.length < 128) (hsp : tfcSpace src < 131065) : ∃ depth img idx, tfcMain conv fs depth path = some (img, idx) := by
  obtain ⟨d, e⟩ := (C58_source hr path src).2 hs
  obtain ⟨img, idx, h⟩ := C56_compiles src hrf ht hsp
  refine ⟨d, img, idx, ?_⟩
  rw [tfcRead] at e
  rw [tfcMain, e]
  exact h

/-! ### A case -/

def tabFileA : List Byte := ru "// tables\n.include   b.tf // more\n\n.type м 1a, мо 1a//1b\n{\n  .число Е\n    '', И|затрудн  // nothing\n    а Р\n  .число М\n  ов, Во, , x\n}"
def tabFileB : List Byte := ru ".таблица x\n{\n\tся,вф\n}\n// the end\n"

/-- t/a.tf includes b.tf, which stands in the same folder. -/
def tabFiles : List Byte → Option (List Byte) := fun path =>
  if path = ru "t/a.tf" then some tabFileA
  else if path = ru "t/b.tf" then some tabFileB
  else none

def tabSample : List (List Byte × List FxItem) := [(ru "x", [⟨ru "ся", 0x8000, 3, []⟩]),
  (ru "м 1a, мо 1a//1b", [⟨[], 0, 7, []⟩, ⟨ru "а", 0x1000, 3, []⟩, ⟨ru "ов", 0x3800, 0x41, ru "x"⟩])]

example : tfcRead id tabFiles 2 (ru "t/a.tf") = some tabSample := by decide +kernel
/-- One file at a time is not enough. -/
example : tfcRead id tabFiles 1 (ru "t/a.tf") = none := by decide +kernel

theorem tabFiles_readable : Readable id tabFiles := by
  have key : ∀ file : List Byte, (∀ l ∈ splitOn 10 file, 10 ∉ l ∧ 0 ∉ l ∧ l.length < 4095) → ∃ lines, IsFile file lines := by
    have gen : ∀ n (file : List Byte), file.length ≤ n → (∀ l ∈ splitOn 10 file, 10 ∉ l ∧ 0 ∉ l ∧ l.length < 4095) → ∃ lines, IsFile file lines := by
      intro n
      induction n with
      | zero =>
        intro file hn _
        have : file = [] := List.eq_nil_of_length_eq_zero (by omega)
        subst this
        exact ⟨[], by simp, Or.inl rfl⟩
      | succ n ih =>
        intro file hn h
        by_cases hm : 10 ∈ file
        · obtain ⟨a, b, rfl, ha⟩ := List.eq_append_cons_of_mem hm
          rw [splitOn_some _ _ _ ha] at h
          simp only [List.length_append, List.length_cons] at hn
          obtain ⟨lines, h1, h2⟩ := ih b (by omega) fun l hl => h l (by simp [hl])
          refine ⟨a :: lines, ?_, ?_⟩
          · intro l hl
            rcases List.mem_cons.1 hl with rfl | hl
            · exact h _ (by simp)
            · exact h1 l hl
          · rcases h2 with rfl | ⟨first, last, rfl, hne, rfl⟩
            · exact Or.inl (by simp [fileOf])
            · exact Or.inr ⟨a :: first, last, rfl, hne, by simp [fileOf]⟩
        · rw [splitOn_none _ _ hm] at h
          by_cases h0 : file = []
          · subst h0; exact ⟨[], by simp, Or.inl rfl⟩
          · exact ⟨[file], by simpa using h, Or.inr ⟨[], file, rfl, h0, rfl⟩⟩
    exact fun file => gen file.length file (Nat.le_refl _)
  refine ⟨fun path file h => ?_, fun _ h => h⟩
  rw [tabFiles] at h
  split at h
  · rw [← Option.some.inj h]; exact key tabFileA (by decide +kernel)
  · split at h
    · rw [← Option.some.inj h]; exact key tabFileB (by decide +kernel)
    · simp at h

example : TfcSource id tabFiles (ru "t/a.tf") tabSample := (C58_source tabFiles_readable _ _).1 ⟨2, by decide +kernel⟩

end Libmorph
