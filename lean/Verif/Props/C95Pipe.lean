import Verif.Props.C95
import Verif.Props.C79Ex
/-
C95: from the dictionary to the linked fuzzy analyser through the two programs.
-/
namespace Libmorph
open Spec Json

theorem passedByte_lt {b : Byte} (h : PassedByte b) : b < 256 := by
  have := h.1
  unfold utf8Known at this
  omega

/-- Classes made of lexemes that can be passed on are texts. -/
theorem made_text {cs : List (LexClass × Bool)} {sort : ClassMap → ClassMap} (hsort : ∀ m, (sort m).Perm m) {out : List FuzzyClass} {m m' : ClassMap}
    {φ : ClassKey → ClassKey} (h : Made cs sort out m m' φ) (hpass : ∀ c ∈ cs, PassedOn c.1) : ∀ C ∈ out, C.Text := by
  intro C hC
  obtain ⟨k, -, -, -, hmod⟩ := C74_modelled hsort h C hC
  have hmodels : ∀ mo ∈ C.models, mo.s0 < 256 ∧ mo.s1 < 256 ∧ ∀ b ∈ mo.sample, b < 256 := by
    intro mo hmo
    obtain ⟨-, c, hc, -, e1, e2, e3⟩ := hmod mo hmo
    have hP := hpass c hc
    rw [← e1, ← e2, ← e3]
    exact ⟨passedByte_lt hP.suffix.1, passedByte_lt hP.suffix.2, fun b hb => passedByte_lt (hP.sample b hb)⟩
  rw [h.printed] at hC
  obtain ⟨e, he, rfl⟩ := List.mem_map.1 hC
  have he' : e ∈ m' := by
    obtain ⟨rest, h1, -⟩ := h.beginning
    exact (hsort m').mem_iff.1 (by rw [h1]; simp [he])
  obtain ⟨k1, -⟩ := h.merged.kept e.1 (List.mem_map.2 ⟨e, he', rfl⟩)
  obtain ⟨c, hc, hk⟩ := (h.collected.keys e.1).1 k1
  have hP := hpass c hc
  refine ⟨?_, ?_, hmodels⟩
  · show e.1.1 < 256
    rw [← hk]; exact hP.partSp
  · intro f hf
    have hf : f ∈ c.1.key.2 := by rw [hk]; exact hf
    exact ⟨hP.form f hf, fun b hb => passedByte_lt (hP.ending f hf b hb)⟩

/-- **C95, from the dictionary to the analyser.**  make-classes is given files of marks; its text is saved; compile-dict is given this file.  If there is a class and no ending
is longer than 30 bytes, the C++ file, compiled and linked, has the images of the classes made of the lexemes of the dictionary (C74); otherwise compile-dict ends with 22
and writes nothing.  Missing: lexemes with letters that cannot be passed on (C88). -/
theorem C95_pipeline_partial {T : ClassTool} (hT : T = rusTool ∨ T = engTool) {low : Byte → Byte} {M : Morpho} {buffer : List Byte} {margs : List (List Byte)} {d : Disk}
    (hfiles : ∀ a ∈ margs, d.file a ≠ none) {sel ban : Nat → Bool} (hsel : ∀ x, sel x = Bool.true ↔ ∃ a ∈ margs, ∃ t, d.file a = some t ∧ (Bool.false, x) ∈ fileMarks t)
    (hban : ∀ x, ban x = Bool.true ↔ ∃ a ∈ margs, ∃ t, d.file a = some t ∧ (Bool.true, x) ∈ fileMarks t)
    {limits : List (Nat × Nat)} {cs : List (LexClass × Bool)} (ht : TakenAs T low M buffer sel ban (limitIds limits) cs) (hno : ¬ AccentsClash cs)
    (sort : ClassMap → ClassMap) (hsort : ∀ m, (sort m).Perm m) (hn : cs.length < 2 ^ 31) (hpass : ∀ c ∈ cs, PassedOn c.1) :
    ∃ text out m m' φ, makeClassesProgram T low M buffer sort limits toUtf8 margs d = .ran (.done text) ∧ Made cs sort out m m' φ ∧
      ∀ (tree : List FuzzyClass → PTree) (name : List Byte) (cargs : List (List Byte)) (d₁ : Disk) (source output nspace : List Byte),
        CompileCall cargs source output nspace → d₁.file source = some text → d₁.creatable output = Bool.true → (nspace = [] ∨ CPath nspace) → (tree out).Text →
        (fuzzyImages out (tree out)).tables.length < 2 ^ 32 → (fuzzyImages out (tree out)).reverse.length < 2 ^ 32 →
        ((out ≠ [] ∧ ∀ C ∈ out, ∀ f ∈ C.flexes, f.2.length ≤ 30) →
          ∃ d₂, compileDictProgram ⟨readLax, fromUtf8, tree⟩ name cargs d₁ = some (.exit 0 d₂) ∧ linkFuzzy nspace (d₂.file output) = some (fuzzyImages out (tree out))) ∧
        (¬ (out ≠ [] ∧ ∀ C ∈ out, ∀ f ∈ C.flexes, f.2.length ≤ 30) → compileDictProgram ⟨readLax, fromUtf8, tree⟩ name cargs d₁ = some (.exit 22 d₁)) := by
  obtain ⟨out, m, m', φ, h1, h2⟩ := C74_made hT ht hno sort hsort
  obtain ⟨out', text, h3, h4, h5⟩ := C88_passed_partial hT ht hno sort hsort hn hpass
  rw [h1] at h3
  obtain rfl := Ran.done.inj h3
  obtain ⟨marks, e1, e2⟩ := (C89_files (margs.map fun a => (a, d.file a))).1 (by
    intro a ha
    obtain ⟨b, hb, rfl⟩ := List.mem_map.1 ha
    exact hfiles b hb)
  have e3 : ∀ x, x ∈ marks ↔ ∃ a ∈ margs, ∃ t, d.file a = some t ∧ x ∈ fileMarks t := by
    intro x
    rw [e2]
    constructor
    · rintro ⟨a, ha, t, k⟩
      obtain ⟨b, hb, rfl⟩ := List.mem_map.1 ha
      exact ⟨b, hb, t, k⟩
    · rintro ⟨b, hb, t, k⟩
      exact ⟨(b, d.file b), List.mem_map.2 ⟨b, hb, rfl⟩, t, k⟩
  have f1 : (fun x : Nat => decide ((Bool.false, x) ∈ marks)) = sel := by
    funext x
    rw [Bool.eq_iff_iff, decide_eq_true_iff, e3, hsel]
  have f2 : (fun x : Nat => decide ((Bool.true, x) ∈ marks)) = ban := by
    funext x
    rw [Bool.eq_iff_iff, decide_eq_true_iff, e3, hban]
  refine ⟨text, out, m, m', φ, ?_, h2, ?_⟩
  · rw [makeClassesProgram, makeClassesMain, e1]
    simp only
    rw [f1, f2, h4]
  · intro tree name cargs d₁ source output nspace hcall hsrc hw hs htree l1 l2
    constructor
    · intro hc
      rw [if_pos hc] at h5
      obtain ⟨d₂, k1, k2, -⟩ := C95_compiled (T := ⟨readLax, fromUtf8, tree⟩) (name := name) hcall hsrc h5 hw hs (made_text hsort h2 hpass) htree l1 l2
      exact ⟨d₂, k1, k2⟩
    · intro hc
      rw [if_neg hc] at h5
      exact (((C95_statuses ⟨readLax, fromUtf8, tree⟩ name cargs d₁).2.2 source output nspace hcall).2 text hsrc).1 h5

/-! ### Cases -/

/-- compile-dict -ns=libfuzzy::rus a b. -/
def compileLine : List (List Byte) := [litBytes "-ns=libfuzzy::rus", [97], [98]]

theorem compileLine_call : CompileCall compileLine [97] [98] (cText "libfuzzy::rus") := by
  refine ⟨⟨?_, by decide⟩, by decide, .inl ⟨[], litBytes "-ns=libfuzzy::rus", [[97], [98]], rfl, .inl (by decide), by decide⟩⟩
  intro a ha hs
  simp only [compileLine, List.mem_cons, List.not_mem_nil, or_false] at ha
  rcases ha with rfl | rfl | rfl
  · exact ⟨cText "libfuzzy::rus", .inl (by decide)⟩
  · simp [isSwitch] at hs
  · simp [isSwitch] at hs

/-- The marks of C89 in the file x, the class of C74, and the two programs: the analyser has the class. -/
theorem C95_example (d : Disk) (hx : d.file [120] = some markedFile) (hw : ∀ p, d.creatable p = Bool.true) (tree : List FuzzyClass → PTree) (htree : (tree [boyClass]).Text)
    (hlen : (tree [boyClass]).ser.length < 2 ^ 32) :
    ∃ text d₂, makeClassesProgram rusTool asciiLow mixMorpho (List.replicate 100 0) byWeight [(1, 5)] toUtf8 [[120]] d = .ran (.done text) ∧
      compileDictProgram ⟨readLax, fromUtf8, tree⟩ [99] compileLine (d.put [97] text) = some (.exit 0 d₂) ∧
      linkFuzzy (cText "libfuzzy::rus") (d₂.file [98]) = some (fuzzyImages [boyClass] (tree [boyClass])) := by
  obtain ⟨text, h1, h2⟩ := C89_example
  have hm : makeClassesProgram rusTool asciiLow mixMorpho (List.replicate 100 0) byWeight [(1, 5)] toUtf8 [[120]] d = .ran (.done text) := by
    rw [makeClassesProgram, List.map_cons, List.map_nil, hx, h1]
  obtain ⟨d₂, k1, k2, -⟩ := C95_compiled (T := ⟨readLax, fromUtf8, tree⟩) (name := [99]) (d := d.put [97] text) (cs := [boyClass]) compileLine_call (by simp [Disk.put]) h2
    (by rw [Disk.put]; exact hw _) (.inr name_libfuzzy_rus)
    (fun c hc => ⟨(by decide : ∀ c ∈ [boyClass], c.partSp < 256) c hc, (by decide : ∀ c ∈ [boyClass], ∀ f ∈ c.flexes, f.1 < 256 ∧ ∀ b ∈ f.2, b < 256) c hc,
      (by decide : ∀ c ∈ [boyClass], ∀ m ∈ c.models, m.s0 < 256 ∧ m.s1 < 256 ∧ ∀ b ∈ m.sample, b < 256) c hc⟩)
    htree (by
      show ([boyClass].map FuzzyClass.ser).flatten.length < 2 ^ 32
      decide +kernel) hlen
  exact ⟨text, d₂, hm, k1, k2⟩

/-- dicdump with the sample dictionary. -/
example (d : Disk) : ∃ A text N, dicdumpProgram A 0 [litBytes "build"] d = some (0, .text text) ∧
    ∀ n, N ≤ n → dicdumpProgram A n [litBytes "check=dump"] (d.put (litBytes "dump") text) = some (0, .diff []) := by
  obtain ⟨F, h, h2, _⟩ := C79_russian rusSample_ok rusSample_ids (fun id => List.replicate (16 - (lexkey id).length) 0) (fun _ _ => List.replicate 256 7)
    (fun id => by
      have : (lexkey id).length ≤ 16 := by simp only [lexkey]; split <;> (try split) <;> (try split) <;> (try split) <;> simp
      rw [List.length_replicate]; omega) (fun _ _ => by rw [List.length_replicate]) rusSample_printable
  exact ⟨_, C95_own_dump h h2 (.inr (by decide)) d⟩

/-- -v is no switch, a third name is too many. -/
example (T : CompileTool) (d : Disk) : compileDictProgram T [47] [[45, 118]] d = some (.exit 22 d) ∧ compileDictProgram T [47] [[97], [98], [99]] d = some (.exit 22 d) ∧
    compileDictProgram T [47] [[97]] d = some (.exit 0 d) ∧ compileDictProgram T [97] [] d = none := ⟨rfl, rfl, rfl, rfl⟩

end Libmorph
