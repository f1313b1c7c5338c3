import Verif.Props.C94Eng
import Verif.Props.C68Ex
import Mathlib.Logic.Equiv.List
/-
C94: cases.
-/
namespace Libmorph
open Spec

/-- A format of the index files, and files that need no conversion. -/
def codeFormat : IndexFormat where
  putFlex := fun m => [Encodable.encode m]
  getFlex := fun b => b.head?.bind Encodable.decode
  putMix := fun m => [Encodable.encode m]
  getMix := fun b => b.head?.bind Encodable.decode

theorem codeFormat_ok : IndexOk codeFormat where
  flex := fun m => by simp [codeFormat]
  mix := fun m _ => by simp [codeFormat]

def plainPages : SourcePages := ⟨id, id⟩

/-- The sources of the sample and its dictionaries. -/
def pipeDisk : Disk where
  file := fun p => if p = litBytes "1.txt" then (pipeTexts[0]?).map fileOf else if p = litBytes "2.txt" then (pipeTexts[1]?).map fileOf else pipeFiles p
  creatable := fun _ => true

def rusArgs : List (List Byte) :=
  ["-flex-table=f.tab", "-flex-index:f.idx", "-intr-table=m.tab", "-intr-index=m.idx", "1.txt", "-target-dir=out", "-unknown=u.txt", "2.txt"].map litBytes

theorem rusArgs_call : RusCall rusArgs (litBytes "f.tab") (litBytes "f.idx") (litBytes "m.tab") (litBytes "m.idx") (litBytes "out") (litBytes "u.txt") (litBytes "__libmorphrus__")
    [litBytes "1.txt", litBytes "2.txt"] := by
  have e : (keyArgs rusKeys rusArgs (fun _ => []) []).map (fun r => rusKeys.map r.1) =
      some (["f.tab", "f.idx", "m.tab", "m.idx", "out", "u.txt", "", ""].map litBytes) := by decide +kernel
  rcases keyArgs_is rusKeys_plain rusArgs with ⟨h1, _⟩ | ⟨o, h1, h2, h3, _⟩
  · rw [h1] at e; cases e
  · rw [h1] at e
    simp only [Option.map_some, rusKeys, List.map_cons, List.map_nil, Option.some.injEq, List.cons.injEq, and_true] at e
    obtain ⟨e1, e2, e3, e4, e5, e6, e7, _⟩ := e
    exact ⟨by decide, h2, e1 ▸ h3 _ (by decide), e2 ▸ h3 _ (by decide), e3 ▸ h3 _ (by decide), e4 ▸ h3 _ (by decide),
      ⟨_, e5 ▸ h3 _ (by decide), Or.inr ⟨by decide, rfl⟩⟩, e6 ▸ h3 _ (by decide), ⟨litBytes "", e7 ▸ h3 _ (by decide), Or.inl ⟨rfl, rfl⟩⟩, by decide⟩

/-- The three programs, called for the sample. -/
example : ∃ depth d1 d2 d3, tfcProgram plainPages codeFormat depth (["t/a.tf", "f.tab", "f.idx"].map litBytes) pipeDisk = .exit 0 d1 ∧
    (∃ depth', ichProgram plainPages codeFormat depth' (["c.mx", "m.tab", "m.idx"].map litBytes) d1 = .exit 0 d2) ∧ makerusProgram plainPages codeFormat rusArgs d2 = some (.exit 0 d3) ∧
    linkRus (litBytes "__libmorphrus__") ((["out/mxTables.cpp", "out/flexTree.cpp", "out/mixTypes.cpp", "out/classmap.cpp", "out/stemtree.cpp", "out/lidstree.cpp"].map litBytes).map
      d3.file) = some (pipeState.images pipeTabs.mtab, mixTypes) ∧
    d3.file (litBytes "u.txt") = some (fileOf [ru "// sample", ru "нечто # x y LID:13"]) ∧ d3.file (litBytes "c.mx") = some pipeFileC := by
  obtain ⟨depth, d1, d2, d3, h1, h2, h3, h4, h5, h6⟩ := C94_build (P := plainPages) codeFormat_ok (show Pipeline plainPages.from866 _ _ _ _ _ _ _ _ from pipe_pipeline) (d := pipeDisk)
    (by
      intro p b hp
      have h1 : p ≠ litBytes "1.txt" := by rintro rfl; rw [(by decide +kernel : pipeFiles (litBytes "1.txt") = none)] at hp; cases hp
      have h2 : p ≠ litBytes "2.txt" := by rintro rfl; rw [(by decide +kernel : pipeFiles (litBytes "2.txt") = none)] at hp; cases hp
      simp only [pipeDisk, if_neg h1, if_neg h2]; exact hp)
    (args1 := ["t/a.tf", "f.tab", "f.idx"].map litBytes) (args2 := ["c.mx", "m.tab", "m.idx"].map litBytes)
    ⟨by decide +kernel, by decide +kernel⟩ ⟨by decide +kernel, by decide +kernel⟩ rusArgs_call (by decide) (by decide)
    (.cons ⟨by decide, _, rfl, rfl⟩ (.cons ⟨by decide, _, rfl, rfl⟩ .nil)) (by decide +kernel) (by decide) (fun _ => rfl) (Or.inr name_space.path) (by decide +kernel) (by decide +kernel)
    (by decide) (by decide) (by decide +kernel) (by decide +kernel) (by decide +kernel)
  have nodir : ∀ p, p ∈ [litBytes "u.txt", litBytes "c.mx"] → ∀ n ∈ rusNames, ¬ InDir (litBytes "out") n p := by
    intro p hp n hn h
    rw [inDir_iff] at h
    exact (by decide +kernel : ∀ p ∈ [litBytes "u.txt", litBytes "c.mx"], ∀ n ∈ rusNames, p ≠ outPath (litBytes "out") n) p hp n hn h
  refine ⟨depth, d1, d2, d3, h1, h2, h3, h4 _ ?_, h5 (by decide) (by decide) (nodir _ (by decide)), ?_⟩
  · have : ∀ names : List (List Byte), List.Forall₂ (InDir (litBytes "out")) names (names.map (outPath (litBytes "out"))) := by
      intro names
      rw [List.forall₂_map_right_iff, List.forall₂_same]
      exact fun n _ => (inDir_iff _ _ _).2 rfl
    exact this rusNames
  · rw [h6 (litBytes "c.mx") (by decide) (nodir _ (by decide))]
    rfl

/-- A switch that does not exist, one given twice; no tables. -/
example : makerusProgram plainPages codeFormat (["--help"].map litBytes) pipeDisk = some (.exit 14 pipeDisk) ∧
    makerusProgram plainPages codeFormat (["-unknown=a", "-unknown:b", "1.txt"].map litBytes) pipeDisk = some (.exit 14 pipeDisk) :=
  ⟨(C94_makerus_refused _ _ pipeDisk _).2.1 (by decide) ⟨[], _, [], rfl, rfl, Or.inl fun k hk v hv => by
      have := keySwitch_of rusKeys_plain hk hv fun _ => []
      rw [if_neg (by simp)] at this
      rw [(by decide +kernel : keySwitch rusKeys ((litBytes "--help").drop 1) (fun _ => []) = none)] at this
      cases this⟩,
    (C94_makerus_refused _ _ pipeDisk _).2.1 (by decide) ⟨[_], _, [_], rfl, rfl, Or.inr ⟨litBytes "unknown", by decide, litBytes "b", litBytes "a", Or.inr rfl, by decide,
      _, List.mem_singleton.2 rfl, Or.inl rfl⟩⟩⟩

/-- The English sample. -/
def engDisk : Disk where
  file := fun p => if p = litBytes "eng.txt" then some (fileOf sampleLines) else none
  creatable := fun _ => true

def engArgs : List (List Byte) := ["-target-dir=out/", "eng.txt", "-unknown:u"].map litBytes

theorem engArgs_call : EngCall engArgs (litBytes "out/") (litBytes "u") (litBytes "__libmorpheng__") [litBytes "eng.txt"] := by
  have e : (keyArgs engKeys engArgs (fun _ => []) []).map (fun r => engKeys.map r.1) = some (["out/", "u", ""].map litBytes) := by decide +kernel
  rcases keyArgs_is engKeys_plain engArgs with ⟨h1, _⟩ | ⟨o, h1, h2, h3, _⟩
  · rw [h1] at e; cases e
  · rw [h1] at e
    simp only [Option.map_some, engKeys, List.map_cons, List.map_nil, Option.some.injEq, List.cons.injEq, and_true] at e
    obtain ⟨e1, e2, e3⟩ := e
    exact ⟨by decide, h2, ⟨_, e1 ▸ h3 _ (by decide), Or.inr ⟨by decide, rfl⟩⟩, e2 ▸ h3 _ (by decide), ⟨litBytes "", e3 ▸ h3 _ (by decide), Or.inl ⟨rfl, rfl⟩⟩, by decide⟩

example : ∃ d', makeengProgram plainPages (litBytes "makeeng") engArgs engDisk = some (.exit 0 d') ∧
    linkEng (litBytes "__libmorpheng__") ((["out/flexTree.cpp", "out/classmap.cpp", "out/stemtree.cpp", "out/lidstree.cpp"].map litBytes).map d'.file) = some (engBuild engSample).images ∧
    d'.file (litBytes "u") = some (fileOf [litBytes "// sample"]) := by
  have hos : List.Forall₂ (LineSays lidNumber) [sampleLines].flatten (none :: none :: engSample.map some) := by
    have hs : ∀ l, engLine l = some .skip → LineSays lidNumber l none := fun l => (engLine_skip l).1
    have ha : ∀ l a, engLine l = some (.article a) → LineSays lidNumber l (some a) := fun l a => (engLine_article l a).1
    refine .cons (hs _ (by decide +kernel)) (.cons (hs _ (by decide +kernel)) (.cons (ha _ _ (by decide +kernel))
      (.cons (ha _ _ (by decide +kernel)) (.cons (ha _ _ (by decide +kernel)) (.cons (ha _ _ (by decide +kernel)) .nil)))))
  obtain ⟨d', h1, h2, h3, h4⟩ := C94_build_english (P := plainPages) (name := litBytes "makeeng") (d := engDisk) engArgs_call (by decide) (files := [sampleLines])
    (.cons ⟨_, rfl, rfl⟩ .nil) (by decide +kernel) hos (fun _ => rfl) (Or.inr (Spec.CName.path (isName (by decide) (by decide) (by decide) (by decide)))) (by decide) (by decide)
    (by decide +kernel) (by decide +kernel) (by decide +kernel) (by decide +kernel)
  refine ⟨d', h1, h2 _ ?_, h3 [litBytes "// sample"] ((comments_iff _ _).2 (by decide +kernel)) (by decide) (by decide) fun n hn h => ?_⟩
  · have : ∀ names : List (List Byte), List.Forall₂ (InDir (litBytes "out/")) names (names.map (outPath (litBytes "out/"))) := by
      intro names
      rw [List.forall₂_map_right_iff, List.forall₂_same]
      exact fun n _ => (inDir_iff _ _ _).2 rfl
    exact this engNames
  · rw [inDir_iff] at h
    exact (by decide +kernel : ∀ n ∈ engNames, litBytes "u" ≠ outPath (litBytes "out/") n) n hn h

/-- The switches of tfc, and what they come to: the Ukrainian words, then the Russian ones. -/
example (d : Disk) : tfcProgram plainPages codeFormat 5 (["-w", "a", "-x", "b", "c"].map litBytes) d = .exit 255 d :=
  ((C94_refused plainPages codeFormat 5 d _).2 (by decide) (litBytes "-x") (by decide) (by decide)).1 (by decide)

end Libmorph
