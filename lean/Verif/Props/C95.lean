import Verif.Lemmas.FuzzyCommands
import Verif.Props.C80
import Verif.Props.C79Dump
import Verif.Props.C78Ex
import Verif.Props.C89
/-
C95: compile-dict, make-classes and dicdump as programs.
-/
namespace Libmorph
open Spec

/-! ### compile-dict -/

theorem loadClasses_some {parse : List Byte → Option JVal} {back : List Byte → List Byte} {text : List Byte} {cs : List FuzzyClass}
    (h : loadClasses parse back text = .ok cs) : cs ≠ [] := by
  rw [loadClasses] at h
  split at h
  · split at h
    · simp at h
    · rename_i o _ hz
      obtain ⟨z, zs, e⟩ := List.exists_cons_of_ne_nil hz
      rw [e, List.mapM_cons] at h
      intro hc
      subst hc
      cases h1 : loadClass back z with
      | error k => rw [h1] at h; simp [bind, Except.bind] at h
      | ok c =>
        rw [h1] at h
        cases h2 : List.mapM (loadClass back) zs with
        | error k => rw [h2] at h; simp [bind, Except.bind] at h
        | ok l => rw [h2] at h; simp [bind, Except.bind, pure, Except.pure] at h
  · simp at h

/-- What the program does once its arguments are read. -/
theorem compileDict_call {T : CompileTool} {name : List Byte} {args : List (List Byte)} {d : Disk} {source output nspace : List Byte} (h : CompileCall args source output nspace) :
    compileDictProgram T name args d = match d.file source with
      | none => some (.exit 2 d)
      | some text =>
        match loadClasses T.parse T.back text with
        | .error .refused => some (.exit 22 d)
        | .error .crashed => some (.aborted [] d)
        | .error .unknown => none
        | .ok cs =>
          if d.creatable output then
            (fuzzyFile nspace (cs.map FuzzyClass.ser) [(T.tree cs).ser]).map fun t => .exit 0 (d.put output t)
          else some (.aborted [] d) := by
  obtain ⟨v, h1, h2⟩ := compileArgs_call h
  rw [compileDictProgram, h1]
  simp only [h2]
  rfl

/-- **C95, compile-dict.**  Called with the name of a file of classes and the name of a file that can be made, the program ends with status 0, and the file, compiled and linked
under the namespace of the command line, gives the analyser the images of the classes read from the first file.  No other file is touched. -/
theorem C95_compiled {T : CompileTool} {name : List Byte} {args : List (List Byte)} {d : Disk} {source output nspace text : List Byte} {cs : List FuzzyClass}
    (h : CompileCall args source output nspace) (hf : d.file source = some text) (hl : loadClasses T.parse T.back text = .ok cs) (hw : d.creatable output = true)
    (hs : nspace = [] ∨ CPath nspace) (hc : ∀ c ∈ cs, c.Text) (ht : (T.tree cs).Text) (l1 : (fuzzyImages cs (T.tree cs)).tables.length < 2 ^ 32)
    (l2 : (fuzzyImages cs (T.tree cs)).reverse.length < 2 ^ 32) :
    ∃ d', compileDictProgram T name args d = some (.exit 0 d') ∧ linkFuzzy nspace (d'.file output) = some (fuzzyImages cs (T.tree cs)) ∧
      (∀ other, linkFuzzy other (d'.file output) ≠ none → scopeOf other = scopeOf nspace) ∧ ∀ p, p ≠ output → d'.file p = d.file p := by
  have hd := fuzzyFile_decls hs (loadClasses_some hl) hc ht l1 l2
  have hk := C80_fuzzy hs (loadClasses_some hl) hc ht l1 l2
  rw [compileDict_call h, hf]
  simp only [hl, hw, if_true]
  cases ht : fuzzyFile nspace (cs.map FuzzyClass.ser) [(T.tree cs).ser] with
  | none => rw [ht, declsOf] at hd; simp at hd
  | some t =>
    rw [ht] at hd hk
    refine ⟨d.put output t, rfl, ?_, ?_, ?_⟩
    · simp only [Disk.put, if_true]; exact hk
    · intro other ho
      by_contra hne
      apply ho
      simp only [Disk.put, if_true]
      rw [linkFuzzy, hd]
      have e : linkWords other (cText "ClassOffset") [
          ⟨scopeOf nspace, cText "ClassNumber", 32, false, [(cs.map FuzzyClass.ser).length]⟩,
          ⟨scopeOf nspace, cText "ClassOffset", 32, true, fuzzyOffsets 0 (cs.map FuzzyClass.ser)⟩,
          ⟨scopeOf nspace, cText "ClassTables", 8, true, (cs.map FuzzyClass.ser).flatten⟩,
          ⟨scopeOf nspace, cText "ReverseDict", 8, true, (T.tree cs).ser⟩] = none := by
        have hn : ¬ scopeOf nspace = scopeOf other := fun k => hne k.symm
        rw [linkWords]
        simp [hn]
      simp only [Option.bind_eq_bind, Option.bind_some, e, Option.bind_none]
    · intro p hp
      simp [Disk.put, hp]

/-- The other ends: a switch it does not know or a third name: 22; fewer than two names: the usage and 0; no source: 2; a source that is refused: 22; a file that cannot be
made, or a class without its texts: an exception. -/
theorem C95_statuses (T : CompileTool) (name : List Byte) (args : List (List Byte)) (d : Disk) :
    (¬ CompileTakes args → compileDictProgram T name args d = some (.exit 22 d)) ∧
    (CompileTakes args → (namesOf args).length < 2 → compileDictProgram T name args d = if 47 ∈ name then some (.exit 0 d) else none) ∧
    ∀ source output nspace, CompileCall args source output nspace →
      (d.file source = none → compileDictProgram T name args d = some (.exit 2 d)) ∧
      ∀ text, d.file source = some text →
        (loadClasses T.parse T.back text = .error .refused → compileDictProgram T name args d = some (.exit 22 d)) ∧
        (loadClasses T.parse T.back text = .error .crashed → compileDictProgram T name args d = some (.aborted [] d)) ∧
        ∀ cs, loadClasses T.parse T.back text = .ok cs → d.creatable output = false → compileDictProgram T name args d = some (.aborted [] d) := by
  refine ⟨fun h => ?_, fun h hn => ?_, fun source output nspace h => ?_⟩
  · rw [compileDictProgram, compileArgs_none.2 h]
  · obtain ⟨s, v, e⟩ := compileArgs_few h hn
    rw [compileDictProgram, e]
    cases s <;> rfl
  · rw [compileDict_call h]
    refine ⟨fun e => by rw [e], fun text e => ?_⟩
    rw [e]
    refine ⟨fun e => by simp only [e], fun e => by simp only [e], fun cs e hw => by simp [e, hw]⟩

/-- Every call is one of these. -/
theorem C95_calls (args : List (List Byte)) : ¬ CompileTakes args ∨ (CompileTakes args ∧ (namesOf args).length < 2) ∨ ∃ source output nspace, CompileCall args source output nspace := by
  by_cases h : CompileTakes args
  · by_cases hn : (namesOf args).length < 2
    · exact .inr (.inl ⟨h, hn⟩)
    · refine .inr (.inr ?_)
      have h2 := h.names
      obtain ⟨s, o, e⟩ : ∃ s o, namesOf args = [s, o] := List.length_eq_two.1 (by omega)
      obtain ⟨w, -, h3⟩ := compileArgs_takes args [] none h.switches h2
      rcases h3 with ⟨pre, a, post, u, e1, e2, e3, -⟩ | ⟨h3, -⟩
      · exact ⟨s, o, u, h, e, .inl ⟨pre, a, post, e1, e2, e3⟩⟩
      · exact ⟨s, o, _, h, e, .inr ⟨h3, rfl⟩⟩
  · exact .inl h

/-- Whatever happens, only the file that was asked for can change, and it changes only when the status is 0. -/
theorem C95_untouched (T : CompileTool) (name : List Byte) (args : List (List Byte)) (d : Disk) :
    (∀ s d', compileDictProgram T name args d = some (.exit s d') → d' = d ∨
      (s = 0 ∧ ∃ source output nspace, CompileCall args source output nspace ∧ ∀ p, p ≠ output → d'.file p = d.file p)) ∧
    ∀ o d', compileDictProgram T name args d = some (.aborted o d') → d' = d := by
  rcases C95_calls args with h | ⟨h, hn⟩ | ⟨source, output, nspace, h⟩
  · rw [(C95_statuses T name args d).1 h]
    exact ⟨fun s d' e => .inl (by injection e with e; injection e with _ e; exact e.symm), fun o d' e => by simp at e⟩
  · rw [(C95_statuses T name args d).2.1 h hn]
    split
    · exact ⟨fun s d' e => .inl (by injection e with e; injection e with _ e; exact e.symm), fun o d' e => by simp at e⟩
    · exact ⟨fun s d' e => by simp at e, fun o d' e => by simp at e⟩
  · rw [compileDict_call h]
    have k1 : ∀ (x : Nat), (∀ s d', some (ProgEnd.exit x d) = some (ProgEnd.exit s d') → d' = d ∨
        (s = 0 ∧ ∃ source output nspace, CompileCall args source output nspace ∧ ∀ p, p ≠ output → d'.file p = d.file p)) ∧
        ∀ o d', some (ProgEnd.exit x d) = some (ProgEnd.aborted o d') → d' = d :=
      fun x => ⟨fun s d' e => .inl (by injection e with e; injection e with _ e; exact e.symm), fun o d' e => by simp at e⟩
    have k2 : (∀ s d', some (ProgEnd.aborted [] d) = some (ProgEnd.exit s d') → d' = d ∨
        (s = 0 ∧ ∃ source output nspace, CompileCall args source output nspace ∧ ∀ p, p ≠ output → d'.file p = d.file p)) ∧
        ∀ o d', some (ProgEnd.aborted [] d) = some (ProgEnd.aborted o d') → d' = d :=
      ⟨fun s d' e => by simp at e, fun o d' e => by injection e with e; injection e with _ e; exact e.symm⟩
    cases d.file source with
    | none => exact k1 2
    | some text =>
      simp only
      cases loadClasses T.parse T.back text with
      | error e =>
        cases e with
        | refused => exact k1 22
        | crashed => exact k2
        | unknown => exact ⟨fun s d' e => by simp at e, fun o d' e => by simp at e⟩
      | ok cs =>
        simp only
        split
        · cases fuzzyFile nspace (cs.map FuzzyClass.ser) [(T.tree cs).ser] with
          | none => exact ⟨fun s d' e => by simp at e, fun o d' e => by simp at e⟩
          | some t =>
            refine ⟨fun s d' e => ?_, fun o d' e => by simp at e⟩
            simp only [Option.map_some, Option.some.injEq, ProgEnd.exit.injEq] at e
            obtain ⟨rfl, rfl⟩ := e
            exact .inr ⟨rfl, source, output, nspace, h, fun p hp => by simp [Disk.put, hp]⟩
        · exact k2

/-- **C95, the default.**  Without -ns the file cannot be linked with the run time, which is built for libfuzzy::rus (lang-rus/libprob/CMakeLists.txt:7, 9): the default of the
program is the name of a macro that nothing defines. -/
theorem C95_default_namespace {T : CompileTool} {name : List Byte} {args : List (List Byte)} {d : Disk} {source output text : List Byte} {cs : List FuzzyClass}
    (hn : namesOf args = [source, output]) (hsw : ∀ a ∈ args, isSwitch a = false) (hf : d.file source = some text) (hl : loadClasses T.parse T.back text = .ok cs)
    (hw : d.creatable output = true) (hc : ∀ c ∈ cs, c.Text) (ht : (T.tree cs).Text) (l1 : (fuzzyImages cs (T.tree cs)).tables.length < 2 ^ 32)
    (l2 : (fuzzyImages cs (T.tree cs)).reverse.length < 2 ^ 32) :
    ∃ d', compileDictProgram T name args d = some (.exit 0 d') ∧ linkFuzzy (cText "LIBMORPH_NAMESPACE") (d'.file output) = some (fuzzyImages cs (T.tree cs)) ∧
      linkFuzzy (cText "libfuzzy::rus") (d'.file output) = none ∧ linkFuzzy (cText "libfuzzy::eng") (d'.file output) = none ∧ linkFuzzy [] (d'.file output) = none := by
  have hcall : CompileCall args source output (litBytes "LIBMORPH_NAMESPACE") :=
    ⟨⟨fun a ha hs => by rw [hsw a ha] at hs; simp at hs, by rw [hn]; simp⟩, hn, .inr ⟨hsw, rfl⟩⟩
  have hp : CPath (litBytes "LIBMORPH_NAMESPACE") :=
    CName.path (isName (by decide) (by decide) (by decide) (by decide))
  obtain ⟨d', h1, h2, h3, -⟩ := C95_compiled hcall hf hl hw (.inr hp) hc ht l1 l2
  refine ⟨d', h1, h2, ?_, ?_, ?_⟩
  · by_contra k; exact absurd (h3 _ k) (by decide)
  · by_contra k; exact absurd (h3 _ k) (by decide)
  · by_contra k; exact absurd (h3 _ k) (by decide)

/-! ### dicdump -/

/-- **C95, dicdump build.** -/
theorem C95_build {A : DumpApi} {F : Nat → Nat → List (List Byte)} (h : DumpOk A F) (n : Nat) (rest : List (List Byte)) (d : Disk) :
    dicdumpProgram A n (litBytes "build" :: rest) d = some (0, .text (((List.range dumpLimit).filterMap (dumpedLine F)).flatMap (· ++ [10]))) := by
  rw [dicdumpProgram, if_pos rfl, dumpDict, C79_dump h]
  rfl

theorem dicdump_check {A : DumpApi} {F : Nat → Nat → List (List Byte)} (h : DumpOk A F) {path : List Byte} {a : List Byte}
    (ha : a = litBytes "check:" ++ path ∨ a = litBytes "check=" ++ path) (n : Nat) (rest : List (List Byte)) (d : Disk) :
    dicdumpProgram A n (a :: rest) d = match d.file path with
      | none => some (22, .nothing)
      | some file => (dumpDiff n (queueLines n file) ((List.range dumpLimit).filterMap (dumpedLine F)) []).map fun l => (0, .diff l) := by
  have c1 : litBytes "check:" = [99, 104, 101, 99, 107, 58] := by decide
  have c2 : litBytes "check=" = [99, 104, 101, 99, 107, 61] := by decide
  have c3 : litBytes "build" = [98, 117, 105, 108, 100] := by decide
  have e1 : a ≠ litBytes "build" := by
    rw [c3]; rw [c1, c2] at ha
    rcases ha with rfl | rfl <;> simp
  have e2 : ((litBytes "check:").isPrefixOf a || (litBytes "check=").isPrefixOf a) = true := by
    rw [Bool.or_eq_true, cut_prefix, cut_prefix]
    rcases ha with h | h
    · exact .inl ⟨_, h⟩
    · exact .inr ⟨_, h⟩
  have e3 : a.drop 6 = path := by rw [c1, c2] at ha; rcases ha with rfl | rfl <;> rfl
  rw [dicdumpProgram, if_neg e1, if_pos e2, e3]
  cases d.file path with
  | none => rfl
  | some file => simp only [C79_dump h, Option.bind_some]

/-- **C95, dicdump check.**  The file has what `build` printed for a dictionary; the program compares it with its own dictionary.  It ends, with status 0, and prints
nothing if and only if all lexemes have the same lines. -/
theorem C95_check {A B : DumpApi} {F G : Nat → Nat → List (List Byte)} (hA : DumpOk A F) (hB : DumpOk B G)
    (hG : ∀ id < dumpLimit, ∀ f < 256, ∀ s ∈ G id f, 10 ∉ s ∧ 0 ∉ s) {path a : List Byte} (ha : a = litBytes "check:" ++ path ∨ a = litBytes "check=" ++ path)
    (rest : List (List Byte)) (d : Disk) {k : Nat} {text : List Byte} {bs : List (List Byte)} {d₀ : Disk}
    (hbuild : dicdumpProgram B k (litBytes "build" :: bs) d₀ = some (0, .text text)) (hfile : d.file path = some text) :
    ∃ N l, (∀ n, N ≤ n → dicdumpProgram A n (a :: rest) d = some (0, .diff l)) ∧ (l = [] ↔ ∀ id < dumpLimit, dumpedLine F id = dumpedLine G id) := by
  rw [C95_build hB] at hbuild
  simp only [Option.some.injEq, Prod.mk.injEq, DumpOut.text.injEq, true_and] at hbuild
  subst hbuild
  obtain ⟨L, R, e1, e2, ⟨n, out, h1⟩, h2⟩ := C79_check hB hA
  rw [C79_dump hB] at e1
  rw [C79_dump hA] at e2
  injection e1 with e1
  injection e2 with e2
  subst e1 e2
  have hq : ∀ k, ((List.range dumpLimit).filterMap (dumpedLine G)).length < k →
      queueLines k (((List.range dumpLimit).filterMap (dumpedLine G)).flatMap (· ++ [10])) = (List.range dumpLimit).filterMap (dumpedLine G) := by
    intro k hk
    refine C79_read_back _ _ ?_ hk
    intro s hs
    obtain ⟨id, hid, ht⟩ := List.mem_filterMap.1 hs
    have hid := List.mem_range.1 hid
    exact ⟨dumpedLine_chars hid (Or.inl rfl) (fun f hf s hs => (hG id hid f hf s hs).1) ht,
      dumpedLine_chars hid (Or.inr rfl) (fun f hf s hs => (hG id hid f hf s hs).2) ht⟩
  refine ⟨max n (((List.range dumpLimit).filterMap (dumpedLine G)).length + 1), out, ?_, ?_⟩
  · intro m hm
    rw [dicdump_check hA ha, hfile]
    simp only
    rw [hq m (by omega), dumpDiff_mono n m _ _ _ _ (by omega) h1]
    rfl
  · have : (out = [] ↔ ∃ n, dumpDiff n ((List.range dumpLimit).filterMap (dumpedLine G)) ((List.range dumpLimit).filterMap (dumpedLine F)) [] = some []) := by
      constructor
      · rintro rfl; exact ⟨n, h1⟩
      · rintro ⟨m, hm⟩
        have x1 := dumpDiff_mono n (max n m) _ _ _ _ (by omega) h1
        have x2 := dumpDiff_mono m (max n m) _ _ _ _ (by omega) hm
        rw [x1] at x2
        injection x2
    rw [this, h2]
    exact ⟨fun h id hid => (h id hid).symm, fun h id hid => (h id hid).symm⟩

/-- So with its own dump: nothing is printed, whatever the number of rounds allowed, once it is enough. -/
theorem C95_own_dump {A : DumpApi} {F : Nat → Nat → List (List Byte)} (hA : DumpOk A F) (hF : ∀ id < dumpLimit, ∀ f < 256, ∀ s ∈ F id f, 10 ∉ s ∧ 0 ∉ s)
    {path a : List Byte} (ha : a = litBytes "check:" ++ path ∨ a = litBytes "check=" ++ path) (d : Disk) :
    ∃ text N, dicdumpProgram A 0 [litBytes "build"] d = some (0, .text text) ∧ ∀ n, N ≤ n → dicdumpProgram A n [a] (d.put path text) = some (0, .diff []) := by
  obtain ⟨N, l, h1, h2⟩ := C95_check hA hA hF ha [] (d.put path (((List.range dumpLimit).filterMap (dumpedLine F)).flatMap (· ++ [10]))) (C95_build hA 0 [] d)
    (by simp [Disk.put])
  refine ⟨_, N, C95_build hA 0 [] d, ?_⟩
  rw [h2.2 fun _ _ => rfl] at h1
  exact h1

/-- The other ends: nothing asked, a file that is not there, another word. -/
theorem C95_dump_ends {A : DumpApi} {F : Nat → Nat → List (List Byte)} (h : DumpOk A F) (n : Nat) (d : Disk) :
    dicdumpProgram A n [] d = some (0, .usage) ∧
    (∀ path a rest, (a = litBytes "check:" ++ path ∨ a = litBytes "check=" ++ path) → d.file path = none → dicdumpProgram A n (a :: rest) d = some (22, .nothing)) ∧
    ∀ a rest, a ≠ litBytes "build" → (∀ path, a ≠ litBytes "check:" ++ path ∧ a ≠ litBytes "check=" ++ path) → dicdumpProgram A n (a :: rest) d = some (22, .nothing) := by
  refine ⟨rfl, fun path a rest ha hf => by rw [dicdump_check h ha, hf], fun a rest h1 h2 => ?_⟩
  rw [dicdumpProgram, if_neg h1, if_neg]
  rw [Bool.or_eq_true, cut_prefix, cut_prefix]
  rintro (⟨v, e⟩ | ⟨v, e⟩)
  · exact (h2 v).1 e
  · exact (h2 v).2 e

end Libmorph
