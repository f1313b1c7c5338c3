import Verif.Props.C94Rus
import Verif.Props.C55
/-
C94: makeeng, and the English library from its sources.
-/
namespace Libmorph
open Spec

theorem engRead_append : ∀ (l l' : List (List Byte)) (st : EngState),
    engRead st (l ++ l') = (engRead st l).bind fun r => match r with | some st => engRead st l' | none => some none
  | [], l', st => rfl
  | x :: l, l', st => by
    rw [List.cons_append, engRead, engRead]
    cases engLine x with
    | none => rfl
    | some q =>
      cases q with
      | skip => exact engRead_append l l' st
      | stop => rfl
      | article a => exact engRead_append l l' _

theorem engUnknown_append (l l' : List (List Byte)) : engUnknown (l ++ l') = engUnknown l ++ engUnknown l' := by simp [engUnknown]

theorem engDicts_done (conv : List Byte → List Byte) (file : List Byte → Option (List Byte)) : ∀ (ps texts rest : List (List Byte)) (st st' : EngState) (unk : List (List Byte)),
    ps.map file = texts.map some → engRead st (texts.map (sourceLines conv)).flatten = some (some st') →
    engDicts conv file (ps ++ rest) st unk = engDicts conv file rest st' (unk ++ engUnknown (texts.map (sourceLines conv)).flatten)
  | [], texts, rest, st, st', unk, h, hr => by
    have : texts = [] := by simpa using h.symm
    subst this
    cases hr
    simp [engUnknown]
  | p :: ps, texts, rest, st, st', unk, h, hr => by
    cases texts with
    | nil => simp at h
    | cons t texts =>
      simp only [List.map_cons, List.cons.injEq] at h
      simp only [List.map_cons, List.flatten_cons] at hr ⊢
      rw [engRead_append] at hr
      obtain ⟨r, h1, h2⟩ := Option.bind_eq_some_iff.1 hr
      cases r with
      | none => cases h2
      | some st1 =>
        rw [List.cons_append, engDicts, h.1]
        simp only
        rw [h1, Option.bind_some]
        simp only
        rw [engDicts_done conv file ps texts rest st1 st' _ h.2 h2, engUnknown_append, List.append_assoc]

theorem engDicts_stops (conv : List Byte → List Byte) (file : List Byte → Option (List Byte)) : ∀ (ps texts rest : List (List Byte)) (st : EngState) (unk : List (List Byte)),
    ps.map file = texts.map some → engRead st (texts.map (sourceLines conv)).flatten = some none → ∃ u, engDicts conv file (ps ++ rest) st unk = some (none, u)
  | [], texts, rest, st, unk, h, hr => by
    have : texts = [] := by simpa using h.symm
    subst this
    cases hr
  | p :: ps, texts, rest, st, unk, h, hr => by
    cases texts with
    | nil => simp at h
    | cons t texts =>
      simp only [List.map_cons, List.cons.injEq] at h
      simp only [List.map_cons, List.flatten_cons] at hr
      rw [engRead_append] at hr
      obtain ⟨r, h1, h2⟩ := Option.bind_eq_some_iff.1 hr
      rw [List.cons_append, engDicts, h.1]
      simp only
      rw [h1, Option.bind_some]
      cases r with
      | none => exact ⟨_, rfl⟩
      | some st1 => exact engDicts_stops conv file ps texts rest st1 _ h.2 h2

theorem comments_iff (lines unk : List (List Byte)) : Comments lines unk ↔ unk = engUnknown lines := by
  have h1 : ∀ ts, List.Forall₂ Trimmed lines ts ↔ ts = lines.map trimLine := by
    induction lines with
    | nil => intro ts; simp
    | cons l lines ih =>
      intro ts
      rw [List.forall₂_cons_left_iff]
      constructor
      · rintro ⟨t, ts', ht, hts, rfl⟩
        rw [List.map_cons, (trimLine_iff _ _).2 ht, (ih _).1 hts]
      · rintro rfl
        exact ⟨_, _, (trimLine_iff _ _).1 rfl, (ih _).2 rfl, rfl⟩
  rw [Comments, engUnknown]
  have h2 : (fun s : List Byte => decide (s.take 2 = [47, 47])) = fun s => (litBytes "//").isPrefixOf s := by
    funext s
    rw [show litBytes "//" = [47, 47] from rfl]
    rcases s with _ | ⟨a, _ | ⟨b, s⟩⟩
    · rfl
    · by_cases h : a = 47 <;> simp [List.isPrefixOf, h]
    · by_cases ha : a = 47 <;> by_cases hb : b = 47 <;> simp [List.isPrefixOf, ha, hb, Ne.symm]
  rw [← h2]
  constructor
  · rintro ⟨ts, a, rfl⟩
    rw [(h1 ts).1 a]
  · rintro rfl
    exact ⟨_, (h1 _).2 rfl, rfl⟩

theorem comments_newline (lines unk : List (List Byte)) : Comments (lines.map (· ++ [10])) unk ↔ Comments lines unk := by
  rw [Comments, Comments]
  refine exists_congr fun ts => and_congr ?_ Iff.rfl
  rw [List.forall₂_map_left_iff]
  simp only [Trimmed_newline]

theorem engFiles_mem (nspace : List Byte) (st : EngState) (p : List Byte × List Byte) :
    p ∈ engFiles nspace st ↔ (p.1, some p.2) ∈ engNames.zip (engLibrary nspace st) := by
  obtain ⟨n, t⟩ := p
  obtain ⟨a, b, c, e, h⟩ : ∃ a b c e, engLibrary nspace st = [a, b, c, e] := ⟨_, _, _, _, rfl⟩
  rw [engFiles, engNames, h]
  simp only [List.map_cons, List.map_nil, List.zip_cons_cons, List.zip_nil_right, List.drop_succ_cons, List.drop_zero, List.take_succ_cons, List.take_zero,
    List.cons_append, List.nil_append, List.mem_filterMap, List.mem_cons, List.not_mem_nil, or_false, Option.map_eq_some_iff, Prod.mk.injEq, exists_eq_or_imp]
  constructor
  · rintro (⟨_, rfl, rfl, rfl⟩ | ⟨_, rfl, rfl, rfl⟩ | ⟨_, rfl, rfl, rfl⟩ | ⟨_, rfl, ⟨_, rfl, rfl, rfl⟩⟩) <;> simp
  · rintro (⟨rfl, rfl⟩ | ⟨rfl, rfl⟩ | ⟨rfl, rfl⟩ | ⟨rfl, rfl⟩) <;> simp

theorem engFiles_names (nspace : List Byte) (st : EngState) : ((engFiles nspace st).map (·.1)).Pairwise (· ≠ ·) := by
  obtain ⟨a, b, c, e, h⟩ : ∃ a b c e, engLibrary nspace st = [a, b, c, e] := ⟨_, _, _, _, rfl⟩
  have sub : ∀ (l : List (List Byte × Option (List Byte))), ((l.filterMap fun p => p.2.map (p.1, ·)).map (·.1)).Sublist (l.map (·.1)) := by
    intro l
    induction l with
    | nil => exact List.Sublist.refl _
    | cons p l ih =>
      obtain ⟨n, t⟩ := p
      cases t with
      | none => exact ih.cons _
      | some t => exact ih.cons_cons _
  refine List.Pairwise.sublist (sub _) ?_
  rw [h]
  show (["stemtree.cpp", "lidstree.cpp", "flexTree.cpp", "classmap.cpp"].map litBytes).Pairwise (· ≠ ·)
  decide

section
variable (P : SourcePages) (name : List Byte)

theorem makeengProgram_call {args : List (List Byte)} {dir unknown nspace : List Byte} {dicts : List (List Byte)} (h : EngCall args dir unknown nspace dicts) (d : Disk) :
    ∃ o : List Byte → List Byte, orDefault (o (litBytes "target-dir")) "./" = dir ∧ o (litBytes "unknown") = unknown ∧
      orDefault (o (litBytes "namespace")) "__libmorpheng__" = nspace ∧ makeengProgram P name args d = engMake P o dicts d := by
  rcases keyArgs_is engKeys_plain args with ⟨_, hb⟩ | ⟨o, h1, _, h3, _⟩
  · exact (h.good hb).elim
  · obtain ⟨v1, d1, d2⟩ := h.dirIs
    obtain ⟨v2, n1, n2⟩ := h.nspaceIs
    refine ⟨o, ?_, (h3 _ (by decide)).unique engKeys_plain (by decide) h.unknownIs, ?_, ?_⟩
    · rw [(h3 _ (by decide)).unique engKeys_plain (by decide) d1, orDefault_of d2]
    · rw [(h3 _ (by decide)).unique engKeys_plain (by decide) n1, orDefault_of n2]
    · rw [makeengProgram, if_neg h.given, h1, ← h.dictsAre]

/-- **C94, makeeng refused.**  Without arguments the status is the number of bytes printed, no file has changed; with a switch it does not know or one given again, or
without dictionaries, it is aborted, no file has changed. -/
theorem C94_makeeng_refused (d : Disk) (args : List (List Byte)) :
    (args = [] → ∃ s, makeengProgram P name args d = some (.exit s d) ∧ (name.length < 200 → s ≠ 0)) ∧
    (args ≠ [] → BadSwitches engSwitches args → makeengProgram P name args d = some (.aborted [] d)) ∧
    (args ≠ [] → namesOf args = [] → makeengProgram P name args d = some (.aborted [] d)) := by
  refine ⟨fun h => ?_, fun hne hb => ?_, fun hne hn => ?_⟩
  · rw [makeengProgram, if_pos h]
    refine ⟨_, rfl, fun hl => ?_⟩
    rw [List.length_append, show (litBytes "makeeng - the dictionary builder;\nUsage:  ininame\n").length = 50 by decide]
    omega
  · rcases keyArgs_is engKeys_plain args with ⟨h1, _⟩ | ⟨_, _, hg, _⟩
    · rw [makeengProgram, if_neg hne, h1]
    · exact (hg hb).elim
  · rcases keyArgs_is engKeys_plain args with ⟨h1, _⟩ | ⟨o, h1, _⟩
    · rw [makeengProgram, if_neg hne, h1]
    · rw [makeengProgram, if_neg hne, h1, hn]
      simp only [engMake, if_true]

/-- **C94, makeeng.**  A dictionary that is not there, or an article that cannot be understood: the program is aborted, only the file of unknown words may have changed.
Otherwise it writes the comments and the files of the library, and ends with 0; or it comes to a file that cannot be created, and is aborted. -/
theorem C94_makeeng {args : List (List Byte)} {dir unknown nspace : List Byte} {dicts : List (List Byte)} {d : Disk} (h : EngCall args dir unknown nspace dicts) :
    (∀ before after texts, dicts = before ++ after → before.map d.file = texts.map some →
      (engCompile P.from866 texts = some none ∨ (∃ st, engCompile P.from866 texts = some (some st)) ∧ ∃ p, after.head? = some p ∧ d.file p = none) →
      ∃ o d', makeengProgram P name args d = some (.aborted o d') ∧ ∀ q, q ≠ unknown → d'.file q = d.file q) ∧
    ∀ texts st unk, dicts ≠ [] → dicts.map d.file = texts.map some → engCompile P.from866 texts = some (some st) → Comments (texts.map (sourceLines P.from866)).flatten unk →
      ((unknown ≠ [] → unk ≠ [] → d.creatable unknown) → (∀ p ∈ engNames.zip (engLibrary nspace st), ∀ path, InDir dir p.1 path → p.2 ≠ none → d.creatable path) →
        ∃ d', makeengProgram P name args d = some (.exit 0 d') ∧ Written d d' dir unknown unk engNames (engLibrary nspace st)) ∧
      (unknown ≠ [] → unk ≠ [] → d.creatable unknown = Bool.false → makeengProgram P name args d = some (.aborted [] d)) ∧
      ((unknown ≠ [] → unk ≠ [] → d.creatable unknown) → (∃ p ∈ engNames.zip (engLibrary nspace st), ∃ path, InDir dir p.1 path ∧ p.2 ≠ none ∧ d.creatable path = Bool.false) →
        ∃ o d', makeengProgram P name args d = some (.aborted o d') ∧ ∀ path, path ≠ unknown → (∀ n ∈ engNames, ¬ InDir dir n path) → d'.file path = d.file path) := by
  obtain ⟨o, o1, o2, o3, e⟩ := makeengProgram_call P name h d
  constructor
  · intro before after texts hdicts hb hx
    have hne : dicts ≠ [] := by
      rintro rfl
      have hbn : before = [] ∧ after = [] := by simpa using hdicts.symm
      obtain ⟨rfl, rfl⟩ := hbn
      have : texts = [] := by simpa using hb.symm
      subst this
      rcases hx with hx | ⟨_, p, hp, _⟩
      · cases hx
      · cases hp
    have hres : ∃ u, engDicts P.from866 d.file dicts {} [] = some (none, u) := by
      rcases hx with hx | ⟨⟨st, hst⟩, p, hp, hf⟩
      · rw [hdicts]; exact engDicts_stops _ _ _ _ _ _ _ hb hx
      · rw [hdicts, engDicts_done _ _ _ _ _ _ _ _ hb hst]
        cases after with
        | nil => cases hp
        | cons q after =>
          cases hp
          exact ⟨_, by rw [engDicts, hf]⟩
    obtain ⟨u, hres⟩ := hres
    rw [e, engMake]
    simp only
    rw [if_neg hne, hres]
    simp only [Option.map_some, o2]
    have hu : ∀ q, q ≠ unknown → (writeFiles (unknownFile unknown u) d).2.file q = d.file q := fun q hq =>
      writeFiles_other _ _ _ fun p hp => by rw [(unknownFile_mem hp).1]; exact Ne.symm hq
    cases hw : writeFiles (unknownFile unknown u) d with
    | mk ok d1 =>
      rw [hw] at hu
      cases ok
      · exact ⟨_, d1, rfl, hu⟩
      · exact ⟨_, d1, rfl, hu⟩
  · intro texts st unk hne hall hc hunk
    rw [comments_iff] at hunk
    have hres := engDicts_done P.from866 d.file dicts texts [] {} st [] hall hc
    rw [List.append_nil, List.nil_append, ← hunk, engDicts] at hres
    rw [e, engMake]
    simp only
    rw [if_neg hne, hres]
    simp only [Option.map_some, o1, o2, o3]
    obtain ⟨w1, w2, w3⟩ := library_writes (dir := dir) (unknown := unknown) (unk := unk) (engFiles_mem nspace st) (engFiles_names nspace st) d
    refine ⟨fun h1 h2 => ?_, fun h1 h2 h3 => ?_, fun h1 h2 => ?_⟩
    · obtain ⟨d1, d2, e1, e2, hw⟩ := w1 h1 h2
      exact ⟨d2, by rw [e1]; simp only; rw [e2], hw⟩
    · rw [w2 h1 h2 h3]
    · obtain ⟨d1, d2, e1, e2, hw⟩ := w3 h1 h2
      exact ⟨_, d2, by rw [e1]; simp only; rw [e2], hw⟩

end

theorem engLibrary_linked {nspace : List Byte} {st : EngState} {r : Images} (h : linkEng nspace (engLibrary nspace st) = some r) :
    ∃ texts : List (List Byte), engLibrary nspace st = texts.map some ∧ texts.length = 4 := by
  rw [linkEng] at h
  obtain ⟨ds, h1, _⟩ := Option.bind_eq_some_iff.1 h
  have hs := declsOf_some h1
  obtain ⟨a, b, c, e, h⟩ : ∃ a b c e, engLibrary nspace st = [a, b, c, e] := ⟨_, _, _, _, rfl⟩
  rw [h] at hs ⊢
  obtain ⟨a', rfl⟩ := Option.ne_none_iff_exists'.1 (hs a (by simp))
  obtain ⟨b', rfl⟩ := Option.ne_none_iff_exists'.1 (hs b (by simp))
  obtain ⟨c', rfl⟩ := Option.ne_none_iff_exists'.1 (hs c (by simp))
  obtain ⟨e', rfl⟩ := Option.ne_none_iff_exists'.1 (hs e (by simp))
  exact ⟨[a', b', c', e'], rfl, rfl⟩

theorem fileLines {files : List (List (List Byte))} (h : ∀ lines ∈ files, ∀ l ∈ lines, 10 ∉ l ∧ 0 ∉ l ∧ l.length < 1022) :
    ((files.map fileOf).map (sourceLines id)).flatten = files.flatten.map (· ++ [10]) := by
  rw [List.map_map, List.map_flatten]
  congr 1
  refine List.map_congr_left fun lines hl => ?_
  rw [Function.comp_apply, sourceLines, fgetsAll_file lines fun l hm => ⟨(h lines hl l hm).1, (h lines hl l hm).2.2⟩, List.map_map]
  refine List.map_congr_left fun l hm => ?_
  have h0 := (h lines hl l hm).2.1
  rw [Function.comp_apply, id]
  exact ((split_while (p := fun c => decide (c ≠ 0)) (s := l ++ [10]) (x := l ++ [10]) (y := [])).2
    ⟨by simp, by
      intro c hc
      rw [decide_eq_true_eq]
      rintro rfl
      simp [h0] at hc, by simp⟩).1

/-- **C94, the English library from its sources.**  The lines of the dictionaries are articles or passed over: makeeng ends with 0; the four files in the target
directory, compiled and linked, are the library of these articles; nothing else has changed but the file of the comments. -/
theorem C94_build_english {P : SourcePages} {name : List Byte} {d : Disk} {args : List (List Byte)} {dir unknown nspace : List Byte} {dicts : List (List Byte)}
    (h : EngCall args dir unknown nspace dicts) {files : List (List (List Byte))} (hdicts : dicts ≠ [])
    (hfiles : List.Forall₂ (fun p lines => ∃ text, d.file p = some text ∧ sourceLines P.from866 text = sourceLines id (fileOf lines)) dicts files)
    (hlines : ∀ lines ∈ files, ∀ l ∈ lines, 10 ∉ l ∧ 0 ∉ l ∧ l.length < 1022) {os : List (Option Article)} (hos : List.Forall₂ (LineSays lidNumber) files.flatten os)
    (hcr : ∀ p, d.creatable p = Bool.true) (hs : nspace = [] ∨ CPath nspace) (hne : os.filterMap id ≠ []) (hp : ∀ a ∈ os.filterMap id, ∀ b ∈ a.post, b < 256)
    (l1 : (engBuild (os.filterMap id)).images.stemtree.length < 2 ^ 32) (l2 : (engBuild (os.filterMap id)).images.flexTree.length < 2 ^ 32)
    (l4 : (engBuild (os.filterMap id)).images.classmap.length < 2 ^ 32) (l5 : (engBuild (os.filterMap id)).images.lidstree.length < 2 ^ 32) :
    ∃ d', makeengProgram P name args d = some (.exit 0 d') ∧
      (∀ paths, List.Forall₂ (InDir dir) engNames paths → linkEng nspace (paths.map d'.file) = some (engBuild (os.filterMap id)).images) ∧
      (∀ unk, Comments files.flatten unk → unknown ≠ [] → unk ≠ [] → (∀ n ∈ engNames, ¬ InDir dir n unknown) → d'.file unknown = some (fileOf unk)) ∧
      (∀ path, path ≠ unknown → (∀ n ∈ engNames, ¬ InDir dir n path) → d'.file path = d.file path) := by
  obtain ⟨texts, x1, x2⟩ : ∃ texts : List (List Byte), dicts.map d.file = texts.map some ∧ texts.map (sourceLines P.from866) = (files.map fileOf).map (sourceLines id) := by
    clear h hdicts hlines hos
    induction hfiles with
    | nil => exact ⟨[], rfl, rfl⟩
    | cons hp _ ih =>
      obtain ⟨text, a, b⟩ := hp
      obtain ⟨texts, x1, x2⟩ := ih
      exact ⟨text :: texts, by rw [List.map_cons, List.map_cons, x1, a], by rw [List.map_cons, List.map_cons, List.map_cons, x2, b]⟩
  have hcomp : engCompile P.from866 texts = some (some (engBuild (os.filterMap id))) := by
    rw [engCompile, x2, ← engCompile, C55_files files hlines]
    exact ⟨os, hos, rfl⟩
  obtain ⟨d', r, hw⟩ := ((C94_makeeng P name h).2 texts _ _ hdicts x1 hcomp ((comments_iff _ _).2 rfl)).1 (fun _ _ => hcr _) (fun _ _ _ _ _ => hcr _)
  refine ⟨d', r, fun paths hpaths => ?_, fun unk hunk a b c => ?_, fun path hp1 hp2 => hw.other path (fun e => (hp1 e).elim) (fun p hp hin => (hp2 p.1 (List.of_mem_zip hp).1 hin).elim)⟩
  · have hlink := C80_english hs hne hp l1 l2 l4 l5
    obtain ⟨ts, e1, e2⟩ := engLibrary_linked hlink
    rw [e1] at hw
    have hpath : paths = engNames.map (outPath dir) := by
      clear hw hlink
      generalize engNames = names at hpaths
      induction hpaths with
      | nil => rfl
      | cons hp _ ih => rw [List.map_cons, ih, (inDir_iff _ _ _).1 hp]
    rw [hpath, List.map_map]
    have := written_library hw (by rw [e2]; rfl)
    rw [show (d'.file ∘ outPath dir) = fun n => d'.file (outPath dir n) from rfl, this, ← e1]
    exact hlink
  · have e : engUnknown (texts.map (sourceLines P.from866)).flatten = unk := by
      rw [x2, fileLines hlines]
      exact ((comments_iff _ _).1 ((comments_newline _ _).2 hunk)).symm
    rw [e] at hw
    exact hw.lines a b c

end Libmorph
