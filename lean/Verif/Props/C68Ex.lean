import Verif.Props.C69
import Verif.Props.C61
/-
C68, C69: a case.  Two files of ending tables, one of alternations, a dictionary of two files.
-/
namespace Libmorph
open Spec

def pipeFileA : List Byte := ru "// nouns\n.include b.tf\n.type м 1*b, им 1\n{\n.число Е\n  '' И\n  '' В\n  а Р\n  у Д\n  ом, Т\n  е П\n.число М\n  ы И\n  а, И, x // goes on\n}\n.type ж//м 4\n{\n.число М\n  ы И\n  '' Р\n  а, И, x\n}\n"
def pipeFileB : List Byte := ru ".table x\n{\n  м Д\n  ми Т\n  х П\n}\n.table y\n{\n  ся, вф\n}\n.type нсв_нп 5\n{\n.инфинитив\n  ть,,y\n.время Н\n.лицо 2\n  ешь,,y\n}\n"
def pipeFileC : List Byte := ru ".table м 1*b\n{\n  о он н\n}\n"

def pipeFiles : List Byte → Option (List Byte) := fun path =>
  if path = ru "t/a.tf" then some pipeFileA else if path = ru "t/b.tf" then some pipeFileB else if path = ru "c.mx" then some pipeFileC else none

def pipeTexts : List (List (List Byte)) :=
  [[ru "// sample", [], ru "сон # м 1*b LID:300", ru "со=н-то # м 1*b LID:44344 post:-то", ru "иван # им 1 LID: 7"],
   [ru "ножницы мн. ж//м 4 LID:5", ru "\tтам # н - LID:9", ru "в # предл. ШП:ВП LID:12", ru "нечто # x y LID:13", ru "смеяться # нсв_нп 5 LID:14"]]

/-- What the texts of the tables say. -/
def pipeSrc : RusSrc where
  flex := [
    (ru "x", [⟨ru "м", 0x2000, 3, []⟩, ⟨ru "ми", 0x4000, 3, []⟩, ⟨ru "х", 0x5000, 3, []⟩]),
    (ru "y", [⟨ru "ся", 0x8000, 3, []⟩]),
    (ru "нсв_нп 5", [⟨ru "ть", 1, 0x83, ru "y"⟩, ⟨ru "ешь", 20, 0x83, ru "y"⟩]),
    (ru "м 1*b, им 1", [⟨[], 0, 3, []⟩, ⟨[], 0x3000, 3, []⟩, ⟨ru "а", 0x1000, 3, []⟩, ⟨ru "у", 0x2000, 3, []⟩, ⟨ru "ом", 0x4000, 3, []⟩, ⟨ru "е", 0x5000, 3, []⟩,
      ⟨ru "ы", 0x800, 3, []⟩, ⟨ru "а", 0x800, 0x83, ru "x"⟩]),
    (ru "ж//м 4", [⟨ru "ы", 0x800, 3, []⟩, ⟨[], 0x1800, 3, []⟩, ⟨ru "а", 0x800, 0x83, ru "x"⟩])]
  mix := [⟨ru "м 1*b", ru "о", [ru "он", ru "н"]⟩]

/-- The compiled tables. -/
def pipeTabs : RusTabs where
  ftab := [105, 110, 102, 108, 101, 120, 3, 3, 0, 32, 1, 236, 3, 0, 64, 2, 236, 232, 3, 0, 80, 1, 245, 0, 1, 3, 0, 128, 2, 241, 255, 0, 2, 131, 20, 0, 3, 229,
    248, 252, 12, 0, 131, 1, 0, 2, 242, 252, 12, 0, 8, 3, 0, 0, 0, 3, 0, 48, 0, 131, 0, 8, 1, 224, 3, 0, 3, 0, 16, 1, 224, 3, 0, 80, 1, 229, 3, 0, 64, 2,
    238, 236, 3, 0, 32, 1, 243, 3, 0, 8, 1, 251, 3, 3, 0, 24, 0, 131, 0, 8, 1, 224, 3, 0, 3, 0, 8, 1, 251, 0]
  findex := [(ru "x", 3), (ru "y", 12), (ru "нсв_нп 5", 16), (ru "м 1*b", 25), (ru "им 1", 25), (ru "ж//м 4", 46)]
  mtab := [105, 110, 116, 101, 114, 99, 2, 33, 237, 82, 238, 237]
  mindex := [(ru "м 1*b", [(ru "о", 6)])]

theorem pipe_flexImage : tfcMain id pipeFiles 2 (ru "t/a.tf") = some (pipeTabs.ftab, pipeTabs.findex) := by decide +kernel
theorem pipe_mixImage : ichMain id pipeFiles 1 (ru "c.mx") = some (pipeTabs.mtab, pipeTabs.mindex) := by decide +kernel

theorem isFile_of (file : List Byte) (h : ∀ l ∈ splitOn 10 file, 10 ∉ l ∧ 0 ∉ l ∧ l.length < 4095) : ∃ lines, IsFile file lines := by
  have gen : ∀ n (file : List Byte), file.length ≤ n → (∀ l ∈ splitOn 10 file, 10 ∉ l ∧ 0 ∉ l ∧ l.length < 4095) → ∃ lines, IsFile file lines := by
    intro n
    induction n with
    | zero =>
      intro file hn _
      have : file = [] := List.eq_nil_of_length_eq_zero (by omega)
      subst this
      exact ⟨[], by simp, Or.inl rfl⟩
    | succ n ih =>
      intro file hn h
      by_cases hm : 10 ∈ file
      · obtain ⟨a, b, rfl, ha⟩ := List.eq_append_cons_of_mem hm
        rw [splitOn_some _ _ _ ha] at h
        simp only [List.length_append, List.length_cons] at hn
        obtain ⟨lines, h1, h2⟩ := ih b (by omega) fun l hl => h l (by simp [hl])
        refine ⟨a :: lines, ?_, ?_⟩
        · intro l hl
          rcases List.mem_cons.1 hl with rfl | hl
          · exact h _ (by simp)
          · exact h1 l hl
        · rcases h2 with rfl | ⟨first, last, rfl, hne, rfl⟩
          · exact Or.inl (by simp [fileOf])
          · exact Or.inr ⟨a :: first, last, rfl, hne, by simp [fileOf]⟩
      · rw [splitOn_none _ _ hm] at h
        by_cases h0 : file = []
        · subst h0; exact ⟨[], by simp, Or.inl rfl⟩
        · exact ⟨[file], by simpa using h, Or.inr ⟨[], file, rfl, h0, rfl⟩⟩
  exact gen file.length file (Nat.le_refl _) h

theorem pipeFiles_readable : Readable id pipeFiles := by
  refine ⟨fun path file h => ?_, fun _ h => h⟩
  rw [pipeFiles] at h
  split at h
  · rw [← Option.some.inj h]; exact isFile_of pipeFileA (by decide +kernel)
  · split at h
    · rw [← Option.some.inj h]; exact isFile_of pipeFileB (by decide +kernel)
    · split at h
      · rw [← Option.some.inj h]; exact isFile_of pipeFileC (by decide +kernel)
      · simp at h

/-! ### The limits of the tables -/

theorem defined_mem {src : List (List Byte × List FxItem)} {name : List Byte} {lines : List FxItem} (h : Defined src name lines) :
    ∃ p ∈ src, name ∈ tabNames p.1 ∧ p.2 = lines := by
  obtain ⟨pre, header, post, rfl, h1, _⟩ := h
  exact ⟨(header, lines), by simp, (mem_tabNames _ _).2 h1, rfl⟩

def nounSrcCheck (src : List (List Byte × List FxItem)) (lines : List FxItem) (q : Nat) : Bool :=
  lines.all fun l => l.gr ≠ q || (l.tail.length < 16 && (l.flags &&& 0x80 = 0 ||
    src.all fun p => !(tabNames p.1).contains l.next || p.2.all fun r => r.gr ≠ q))

theorem nounSrc_of {src : List (List Byte × List FxItem)} {lines : List FxItem} {q : Nat} (h : nounSrcCheck src lines q = true) : SrcNounShape src lines q := by
  simp only [nounSrcCheck, List.all_eq_true, Bool.or_eq_true, Bool.and_eq_true, decide_eq_true_eq, Bool.not_eq_true'] at h
  refine ⟨fun l hl hq => ?_, fun l hl hq hf next hn r hr => ?_⟩
  · rcases h l hl with h | h
    · exact absurd hq h
    · exact h.1
  · rcases h l hl with h | h
    · exact absurd hq h
    · rcases h.2 with h | h
      · exact absurd h hf
      · obtain ⟨p, hp, h1, rfl⟩ := defined_mem hn
        rcases h p hp with h | h
        · simp at h; exact absurd h1 h
        · exact h r hr

/-- The tables by their names. -/
theorem pipe_names : ∀ p ∈ pipeSrc.flex, ∀ n ∈ tabNames p.1, 32 ∉ n ∨
    (n = ru "нсв_нп" ++ 32 :: ru "5" ∧ p.2 = [⟨ru "ть", 1, 0x83, ru "y"⟩, ⟨ru "ешь", 20, 0x83, ru "y"⟩]) ∨
    ((n = ru "м" ++ 32 :: ru "1*b" ∨ n = ru "им" ++ 32 :: ru "1") ∧ nounSrcCheck pipeSrc.flex p.2 0 = true ∧ nounSrcCheck pipeSrc.flex p.2 0x800 = true) ∨
    (n = ru "ж//м" ++ 32 :: ru "4" ∧ nounSrcCheck pipeSrc.flex p.2 0x800 = true) := by decide +kernel

theorem pipe_verb : SrcVerbShape pipeSrc.flex [⟨ru "ть", 1, 0x83, ru "y"⟩, ⟨ru "ешь", 20, 0x83, ru "y"⟩] where
  active := by decide +kernel
  short := by decide +kernel
  onward := by
    intro l hl h1 h2
    have e : l = ⟨ru "ть", 1, 0x83, ru "y"⟩ := by
      simp only [List.mem_cons, List.not_mem_nil, or_false] at hl
      rcases hl with rfl | rfl
      · rfl
      · simp at h1
    subst e
    refine ⟨by decide +kernel, fun next hn => ?_⟩
    obtain ⟨p, hp, e1, rfl⟩ := defined_mem hn
    have : ∀ p ∈ pipeSrc.flex, ru "y" ∈ tabNames p.1 → p.2 = [⟨ru "ся", 0x8000, 3, []⟩] := by decide +kernel
    rw [this p hp e1]
    exact ⟨by decide +kernel, by decide +kernel⟩

theorem pipeTypes : ∀ x ∈ wordTypes, ∀ p ∈ x.2.2, 32 ∉ ru p.2 ∧ (ru p.2 = ru "м" ∨ ru p.2 = ru "им" → x.1 ∈ [7, 38]) ∧ (ru p.2 = ru "ж//м" → x.1 = 24 ∧ x.2.1 = true) ∧
    (ru p.2 = ru "нсв_нп" → x.1 = 2) := by decide +kernel

theorem pipe_fits : TablesFit pipeSrc where
  lines := by decide +kernel
  tails := by decide +kernel
  words := by decide +kernel
  same := by
    intro l hl l' hl' n _ _ m
    simp only [pipeSrc, List.mem_singleton] at hl hl'
    rw [hl, hl']
  space := by decide +kernel
  steps := by decide +kernel
  heads := by
    intro dies type ind pos plural base lines hty h48 hd
    obtain ⟨p, hp, h1, rfl⟩ := defined_mem hd
    obtain ⟨names, hx, q, hq, _, rfl⟩ := hty
    obtain ⟨s32, t1, t2, t3⟩ := pipeTypes _ hx q hq
    rcases pipe_names p hp _ h1 with h | ⟨e, h⟩ | ⟨e, h, h'⟩ | ⟨e, h⟩
    · rw [tableName] at h; simp at h
    · have := t3 (space_split s32 (by decide +kernel) e).1
      simp only at this
      rw [if_pos (by rw [this]; decide), h]
      exact pipe_verb
    · have hpos := t1 (by
        rcases e with e | e
        · exact Or.inl (space_split s32 (by decide +kernel) e).1
        · exact Or.inr (space_split s32 (by decide +kernel) e).1)
      simp only [List.mem_cons, List.not_mem_nil, or_false] at hpos
      have hg : headGram pos plural base = 0 ∨ headGram pos plural base = 0x800 := by
        rw [headGram, if_neg (by simp; omega)]
        cases plural <;> simp
      rw [if_neg (by rw [IsVerb]; omega)]
      rcases hg with hg | hg <;> rw [hg]
      · exact nounSrc_of h
      · exact nounSrc_of h'
    · obtain ⟨rfl, rfl⟩ := t2 (space_split s32 (by decide +kernel) e).1
      rw [if_neg (by decide), show headGram 24 true base = 0x800 by rw [headGram, if_neg (by decide)]; rfl]
      exact nounSrc_of h
  colons := by
    intro dies type ind pos plural hty hv ht
    obtain ⟨p, hp, h1⟩ := ht
    rw [← mem_tabNames] at h1
    obtain ⟨names, hx, q, hq, _, rfl⟩ := hty
    obtain ⟨s32, t1, t2, t3⟩ := pipeTypes _ hx q hq
    have : ∀ p ∈ pipeSrc.flex, ∀ n ∈ tabNames p.1, 58 ∉ n := by decide +kernel
    have := this p hp _ h1
    rw [tableName] at this
    simp at this
    exact this.2

theorem pipe_compiled : Compiled pipeSrc pipeTabs := by
  have h1 : (tfcRead id pipeFiles 2 (ru "t/a.tf")) = some pipeSrc.flex := by decide +kernel
  have h2 : (ichRead id pipeFiles 1 (ru "c.mx")) = some pipeSrc.mix := by decide +kernel
  exact compiled_of pipeFiles_readable (d := 2) (d' := 1) (path := ru "t/a.tf") (path' := ru "c.mx") pipe_flexImage pipe_mixImage
    ((C58_source pipeFiles_readable _ _).1 ⟨2, h1⟩) ((C59_source pipeFiles_readable _ _).1 ⟨1, h2⟩)

/-! ### The dictionary -/

/-- What the lines are compiled to, line by line. -/
def pipeResults : List RusLineResult :=
  [.unknown (ru "// sample"), .skip, .articles [⟨ru "с", 7, 25, 6, [], 300⟩], .articles [⟨ru "с", 7, 25, 6, ru "-то", 44344⟩],
   .articles [⟨ru "иван", 38, 25, 0, [], 7⟩], .articles [⟨ru "ножниц", 24 + 0x40, 46, 0, [], 5⟩],
   .articles [⟨ru "там", 54, 0, 0, [], 9⟩], .articles [⟨ru "в", 51, 0x28, 0, [], 12⟩], .unknown (ru "нечто # x y LID:13"), .articles [⟨ru "смея", 2, 16, 0, [], 14⟩]]

theorem pipe_lines : pipeTexts.flatten.map (rusLine pipeTabs) = pipeResults.map some := by decide +kernel
theorem pipe_builds : (rusCompile pipeTabs id (pipeTexts.map fileOf)).isSome = true := by decide +kernel


def pipeState : RusState := ((rusCompile pipeTabs id (pipeTexts.map fileOf)).get pipe_builds).1

theorem pipe_texts : ∀ l ∈ pipeTexts.flatten, 10 ∉ l ∧ 0 ∉ l ∧ l.length < 1022 ∧ LineFits l ∧ LineRegular l := by
  have h1 : ∀ l ∈ pipeTexts.flatten, 10 ∉ l ∧ 0 ∉ l ∧ l.length < 1022 := by decide +kernel
  have h2 : ∀ l ∈ pipeTexts.flatten, fitsCheck l = true ∧ regularCheck l = true := by decide +kernel
  intro l hl
  exact ⟨(h1 l hl).1, (h1 l hl).2.1, (h1 l hl).2.2, fits_of (h2 l hl).1, regular_of (h2 l hl).2⟩

/-- What the lines say: the articles with their references. -/
theorem pipe_realizes : ∀ line ∈ pipeTexts.flatten, ∀ arts unk, SrcLineSays pipeSrc lidNumber line arts unk → ∀ A ∈ arts,
    ∃ r ∈ pipeResults, ∃ a ∈ r.arts, Realizes pipeSrc pipeTabs A a := by
  intro line hline arts unk hs A hA
  obtain ⟨l, s1, s2⟩ := says_of pipe_fits pipe_compiled hs
  obtain ⟨a, ha, hr⟩ := forall₂_mem_left s2 hA
  have hm : rusLine pipeTabs line ∈ pipeResults.map some := by rw [← pipe_lines]; exact List.mem_map.2 ⟨line, hline, rfl⟩
  obtain ⟨r, hr1, hr2⟩ := List.mem_map.1 hm
  obtain ⟨e1, _⟩ := RusLineSays_unique (pipe_fit pipe_fits pipe_compiled) s1 (rusLine_sound (pipe_fit pipe_fits pipe_compiled) hr2.symm)
  exact ⟨r, hr1, a, by rw [← e1]; exact ha, hr⟩

def pipeEndLetters : List Byte := ru "аешьтяумиохысть"

/-- The endings of all the tables. -/
theorem pipe_endings : ∀ {name : List Byte} {r : Nat}, mapFind pipeTabs.findex name = some r → ∃ l : List (List Byte × FlexInfo), l ∈ [3, 12, 16, 25, 46].filterMap (allEndings pipeTabs.ftab 3) ∧
    ∀ e g fl, SrcEnding pipeSrc.flex name e g fl → (e, ⟨g, fl⟩) ∈ l := by
  intro name r h
  have hr : r ∈ [3, 12, 16, 25, 46] := by
    obtain ⟨p, hp, rfl, _⟩ := mapFind_some h
    have : ∀ p ∈ pipeTabs.findex, p.2 ∈ [3, 12, 16, 25, 46] := by decide +kernel
    exact this p hp
  have hs : ∀ t ∈ [3, 12, 16, 25, 46], (allEndings pipeTabs.ftab 3 t).isSome = true := by decide +kernel
  obtain ⟨l, hl⟩ := Option.isSome_iff_exists.1 (hs r hr)
  refine ⟨l, List.mem_filterMap.2 ⟨r, hr, hl⟩, fun e g fl he => ?_⟩
  exact mem_allEndings ((ending_iff pipe_fits pipe_compiled h e g fl).2 he) hl

theorem pipe_named {name e : List Byte} {g fl : Nat} (h : SrcEnding pipeSrc.flex name e g fl) : ∃ r, mapFind pipeTabs.findex name = some r := by
  rw [← hasTable_iff pipe_compiled.flex]
  cases h with
  | here h _ _ => obtain ⟨p, hp, h1, _⟩ := defined_mem h; exact ⟨p, hp, (mem_tabNames _ _).1 h1⟩
  | next h _ _ _ => obtain ⟨p, hp, h1, _⟩ := defined_mem h; exact ⟨p, hp, (mem_tabNames _ _).1 h1⟩

def pipeAlphabet : List Byte := ru "абвжзийклмнопрстуцея"

theorem pipe_articles : ∀ line ∈ pipeTexts.flatten, ∀ arts unk, SrcLineSays pipeSrc lidNumber line arts unk → ∀ A ∈ arts, ArticleFits pipeAlphabet pipeSrc A := by
  intro line hline arts unk hs A hA
  obtain ⟨r, hr1, a, ha, hr⟩ := pipe_realizes line hline arts unk hs A hA
  have key : ∀ r ∈ pipeResults, ∀ a ∈ RusLineResult.arts r, (∀ b ∈ a.stem, b ∈ pipeAlphabet) ∧ a.stem.length ≤ 48 ∧ (a.post.length < 128 ∧ ∀ b ∈ a.post, 0 < b ∧ b < 256) ∧
      a.id < 2 ^ 32 ∧ (a.wdinfo % 64 = 51 → a.wdinfo = 51 ∧ a.tfoffs ≠ 0) := by decide +kernel
  obtain ⟨k1, k2, k3, k4, k5⟩ := key r hr1 a ha
  have ends : ∀ name, A.table = some name → ∃ l : List (List Byte × FlexInfo), l ∈ [3, 12, 16, 25, 46].filterMap (allEndings pipeTabs.ftab 3) ∧
      ∀ e g fl, SrcEnding pipeSrc.flex name e g fl → (e, ⟨g, fl⟩) ∈ l := by
    intro name h
    rcases hr.table with ⟨h1, _⟩ | ⟨name', h1, h2, _⟩
    · rw [h1] at h; simp at h
    · rw [h1] at h; cases h; exact pipe_endings h2
  have lst : ∀ l ∈ [3, 12, 16, 25, 46].filterMap (allEndings pipeTabs.ftab 3), l.length ≤ 64 ∧ ∀ p ∈ l, p.1.length ≤ 64 ∧ ∀ b ∈ p.1, b ∈ pipeEndLetters := by decide +kernel
  constructor
  · rw [← hr.stem]; exact k1
  · rw [← hr.stem]; exact k2
  · rw [← hr.post]; exact k3
  · rw [← hr.id]; exact k4
  · intro h
    rw [SrcArticle.pos, ← hr.info] at h
    obtain ⟨h1, h2⟩ := k5 h
    refine ⟨by rw [← hr.info]; exact h1, ?_⟩
    rcases hr.table with ⟨_, h3, _⟩ | ⟨_, _, _, _, h3⟩
    · rw [← h3]; exact h2
    · rw [RusArticle.pos] at h3; rw [h1] at h3; exact absurd h3 (by decide)
  · intro name h e g fl he
    obtain ⟨l, hl, hm⟩ := ends name h
    exact ((lst l hl).2 _ (hm e g fl he)).1
  · intro name h
    obtain ⟨l, hl, hm⟩ := ends name h
    exact ⟨pipeEndLetters, by decide +kernel, fun e g fl he => ((lst l hl).2 _ (hm e g fl he)).2⟩
  · intro name h e ds hnd hds
    obtain ⟨l, hl, hm⟩ := ends name h
    have h1 : (ds.map fun d => (e, d)).Nodup := hnd.map (fun _ _ h => (Prod.mk.inj h).2)
    have h2 : (ds.map fun d => (e, d)) ⊆ l := by
      intro p hp
      obtain ⟨d, hd, rfl⟩ := List.mem_map.1 hp
      exact hm _ _ _ (hds d hd)
    have := (List.Nodup.subperm h1 h2).length_le
    rw [List.length_map] at this
    exact Nat.le_trans this (lst l hl).1
  · intro name _ x e g fl h b hb
    refine covers_of_sane (by decide +kernel) (fun l hl => ?_) h b hb
    rcases hr.alt with ⟨h1, _⟩ | ⟨l', hl', h1, _⟩
    · rw [h1] at hl; simp at hl
    · rw [h1] at hl; cases hl
      right
      have : ∀ l ∈ pipeSrc.mix, ∀ s ∈ l.steps, s ≠ [] := by decide +kernel
      exact this _ hl'

theorem get_pair {α β : Type} {o : Option (α × β)} {h : o.isSome = true} {b : β} (e : (o.get h).2 = b) : o = some ((o.get h).1, b) := by
  rw [← e, Prod.mk.eta, Option.some_get]

theorem pipe_unknown : ((rusCompile pipeTabs id (pipeTexts.map fileOf)).get pipe_builds).2 = [ru "// sample", ru "нечто # x y LID:13"] := by decide +kernel
theorem pipe_compile : rusCompile pipeTabs id (pipeTexts.map fileOf) = some (pipeState, [ru "// sample", ru "нечто # x y LID:13"]) := get_pair pipe_unknown
theorem pipe_linesFit : ∀ lines ∈ pipeTexts, ∀ l ∈ lines, 10 ∉ l ∧ 0 ∉ l ∧ l.length < 1022 ∧ LineFits l := by
  intro lines hl l hm
  obtain ⟨h1, h2, h3, h4, _⟩ := pipe_texts l (List.mem_flatten.2 ⟨lines, hl, hm⟩)
  exact ⟨h1, h2, h3, h4⟩
theorem pipe_fitting : ∃ alphabet : List Byte, alphabet.length < 128 ∧ (∀ b ∈ alphabet, 0 < b ∧ b < 256) ∧
    ∀ line ∈ pipeTexts.flatten, ∀ arts unk, SrcLineSays pipeSrc lidNumber line arts unk → ∀ A ∈ arts, ArticleFits alphabet pipeSrc A :=
  ⟨pipeAlphabet, by decide +kernel, by decide +kernel, pipe_articles⟩
theorem pipe_flexText : TfcSource id pipeFiles (ru "t/a.tf") pipeSrc.flex := (C58_source pipeFiles_readable _ _).1 ⟨2, by decide +kernel⟩
theorem pipe_mixText : IchSource id pipeFiles (ru "c.mx") pipeSrc.mix := (C59_source pipeFiles_readable _ _).1 ⟨1, by decide +kernel⟩
theorem pipe_count : pipeTexts.flatten.length < 2 ^ 31 := by decide
theorem pipe_classes : pipeState.classes.length ≤ 0x8000 := by decide +kernel
theorem pipe_plain : pipeState.plain.length < 2 ^ 20 := by decide +kernel
theorem pipe_size : (pipeState.images pipeTabs.mtab).stemtree.length < 2 ^ 32 := by decide +kernel

theorem pipe_pipeline : Pipeline id pipeFiles (ru "t/a.tf") (ru "c.mx") pipeSrc pipeTabs pipeTexts pipeState [ru "// sample", ru "нечто # x y LID:13"] :=
  ⟨pipeFiles_readable, ⟨2, pipe_flexImage⟩, ⟨1, pipe_mixImage⟩, pipe_flexText, pipe_mixText, pipe_fits, pipe_linesFit, pipe_compile, pipe_fitting, pipe_count, pipe_classes,
    pipe_plain, pipe_size⟩

theorem pipe_heads : SrcHeads pipeSrc.flex := by
  have ends : ∀ {name e : List Byte} {g fl : Nat}, SrcEnding pipeSrc.flex name e g fl → ∃ l : List (List Byte × FlexInfo),
      l ∈ [3, 12, 16, 25, 46].filterMap (allEndings pipeTabs.ftab 3) ∧ ∀ e g fl, SrcEnding pipeSrc.flex name e g fl → (e, ⟨g, fl⟩) ∈ l := by
    intro name e g fl h
    obtain ⟨r, hr⟩ := pipe_named h
    exact pipe_endings hr
  have c1 : ∀ l ∈ [3, 12, 16, 25, 46].filterMap (allEndings pipeTabs.ftab 3), ∀ p ∈ l, p.2.flags &&& 3 ≠ 0 ∧ (p.2.gramm % 128 = 1 → p.2.gramm = 1 ∨ p.2.gramm = 0x8001) ∧ p.2.gramm ∉ [1, 0x200] := by
    decide +kernel
  have c2 : ∀ l ∈ [3, 12, 16, 25, 46].filterMap (allEndings pipeTabs.ftab 3), ∀ p ∈ l, ∀ p' ∈ l,
      p.2.gramm ∈ [0, 0x200, 0x800, 1, 0x8001, 0x8200] → p.2.gramm = p'.2.gramm → p.1 = p'.1 := by decide +kernel
  constructor
  · intro name e gr fl h
    obtain ⟨l, hl, hm⟩ := ends h
    exact (c1 l hl _ (hm _ _ _ h)).1
  · intro name e gr fl h
    obtain ⟨l, hl, hm⟩ := ends h
    exact (c1 l hl _ (hm _ _ _ h)).2.1
  · intro name q hq e e' fl fl' h
    obtain ⟨l, hl, hm⟩ := ends h
    exact absurd hq (c1 l hl _ (hm _ _ _ h)).2.2
  · intro name q hq e e' fl fl' h h'
    obtain ⟨l, hl, hm⟩ := ends h
    exact c2 l hl _ (hm _ _ _ h) _ (hm _ _ _ h') hq rfl

theorem pipe_masc : ∀ line ∈ pipeTexts.flatten, ∀ arts u, SrcLineSays pipeSrc lidNumber line arts u → ∀ A ∈ arts, ¬ SrcMascPlural A := by
  intro line hline arts unk hs A hA h
  obtain ⟨r, hr1, a, ha, hr⟩ := pipe_realizes line hline arts unk hs A hA
  have key : ∀ r ∈ pipeResults, ∀ a ∈ RusLineResult.arts r, a.wdinfo &&& 0x40 = 0 ∨ a.wdinfo % 64 ∉ [7, 8, 9] := by decide +kernel
  obtain ⟨h1, h2, _⟩ := h
  rw [SrcArticle.pos, ← hr.info] at h2
  rw [← hr.info] at h1
  rcases key r hr1 a ha with h | h
  · exact h1 h
  · exact h h2

/-- What the line of "смеяться" says. -/
theorem pipe_says : ∃ A, SrcLineSays pipeSrc lidNumber (ru "смеяться # нсв_нп 5 LID:14") [A] [] ∧ A.stem = ru "смея" ∧ A.id = 14 ∧ A.demand = 0 ∧
    (A.post = [] ∧ A.alt = none) ∧ A.table = some (ru "нсв_нп 5") ∧ A.info = 2 := by
  have h : RusLineSays (pipeSource pipeSrc pipeTabs) lidNumber (ru "смеяться # нсв_нп 5 LID:14") [⟨ru "смея", 2, 16, 0, [], 14⟩] [] :=
    rusLine_sound (r := .articles [⟨ru "смея", 2, 16, 0, [], 14⟩]) (pipe_fit pipe_fits pipe_compiled) (by decide +kernel)
  obtain ⟨L, s1, s2⟩ := says_to pipe_fits pipe_compiled h
  cases s2 with
  | cons hr s2 =>
    rename_i A L
    cases s2
    have ht : A.table = some (ru "нсв_нп 5") := by
      rcases hr.table with ⟨_, _, h3, _⟩ | ⟨name, h1, h2, _⟩
      · exact absurd (by decide +kernel) h3
      · rw [h1]
        obtain ⟨p, hp, e1, rfl⟩ := mapFind_some h2
        have : ∀ p ∈ pipeTabs.findex, p.2 = 16 → p.1 = ru "нсв_нп 5" := by decide +kernel
        rw [this p hp e1]
    refine ⟨A, s1, hr.stem.symm, hr.id.symm, by rw [← hr.demand]; decide +kernel, ⟨hr.post.symm, ?_⟩, ht, hr.info.symm⟩
    rcases hr.alt with ⟨h1, _⟩ | ⟨_, _, _, h1, _⟩
    · exact h1
    · exact absurd rfl h1

/-- By the sources "смеяться" and "смеяешься" are forms of an article: CheckWord accepts "Смеяться", and Lemmatize of the
other reports the headword and number of its line. -/
example : rusCheck (pipeState.images pipeTabs.mtab) [] (ru "Смеяться") 0 = some 1 ∧
    ∃ R : List (Nat × List Byte), (14, ru "смеяться") ∈ R ∧ ∀ b : List Byte, (packed (R.map (·.2))).length + 1 ≤ b.length →
      ∃ s, rusLemmatize (pipeState.images pipeTabs.mtab) [] (ru "Смеяешься") none (some b) none 0 = some ((R.length : Int), s) ∧
        ∀ b', s.forms.buf = some b' → packed (R.map (·.2)) <+: b' := by
  obtain ⟨A, hs, h1, h2, h3, ⟨h4, h5⟩, h6, h7⟩ := pipe_says
  have hd : Defined pipeSrc.flex (ru "нсв_нп 5") [⟨ru "ть", 1, 0x83, ru "y"⟩, ⟨ru "ешь", 20, 0x83, ru "y"⟩] := by
    refine ⟨pipeSrc.flex.take 2, ru "нсв_нп 5", pipeSrc.flex.drop 3, rfl, (mem_tabNames _ _).1 (by decide +kernel), ?_⟩
    intro p hp
    rw [← mem_tabNames]
    have : ∀ p ∈ pipeSrc.flex.take 2, ru "нсв_нп 5" ∉ tabNames p.1 := by decide +kernel
    exact this p hp
  have hd' : Defined pipeSrc.flex (ru "y") [⟨ru "ся", 0x8000, 3, []⟩] := by
    refine ⟨pipeSrc.flex.take 1, ru "y", pipeSrc.flex.drop 2, rfl, (mem_tabNames _ _).1 (by decide +kernel), ?_⟩
    intro p hp
    rw [← mem_tabNames]
    have : ∀ p ∈ pipeSrc.flex.take 1, ru "y" ∉ tabNames p.1 := by decide +kernel
    exact this p hp
  have hy : SrcEnding pipeSrc.flex (ru "y") (ru "ся") 0x8000 3 := SrcEnding.here (l := ⟨ru "ся", 0x8000, 3, []⟩) hd' (by simp) rfl
  have e1 : SrcEnding pipeSrc.flex (ru "нсв_нп 5") (ru "ться") 0x8001 3 :=
    SrcEnding.next (l := ⟨ru "ть", 1, 0x83, ru "y"⟩) hd (by simp) (by decide) hy
  have e2 : SrcEnding pipeSrc.flex (ru "нсв_нп 5") (ru "ешься") 0x8014 3 :=
    SrcEnding.next (l := ⟨ru "ешь", 20, 0x83, ru "y"⟩) hd (by simp) (by decide) hy
  have hA : ∀ e g, SrcEnding pipeSrc.flex (ru "нсв_нп 5") e g 3 → SrcHasForm pipeSrc.flex A (ru "смея" ++ e) := by
    intro e g he
    refine Or.inr ⟨_, [], e, g, 3, h6, ⟨he, fun h => absurd h (by rw [h7]; decide), Or.inl ⟨h5, rfl⟩⟩, ?_⟩
    rw [h1, h4]; simp
  have hl : ru "смеяться # нсв_нп 5 LID:14" ∈ pipeTexts.flatten := by decide +kernel
  have hpost : ∀ w ∈ [ru "Смеяться", ru "Смеяешься"], ∀ line ∈ pipeTexts.flatten, ∀ arts u, SrcLineSays pipeSrc lidNumber line arts u → ∀ A ∈ arts, A.post ≠ [] → w.map rusTab.lower ≠ A.stem ++ A.post := by
    intro w hw line hline arts u hs B hB _ e
    obtain ⟨r, hr1, a, ha, hr⟩ := pipe_realizes line hline arts u hs B hB
    have key : ∀ w ∈ [ru "Смеяться", ru "Смеяешься"], ∀ r ∈ pipeResults, ∀ a ∈ RusLineResult.arts r, w.map rusTab.lower ≠ a.stem ++ a.post := by decide +kernel
    rw [← hr.stem, ← hr.post] at e
    exact key w hw r hr1 a ha e
  refine ⟨?_, ?_⟩
  · refine C68_complete_partial pipe_pipeline (ru "Смеяться") [] 0 (by decide +kernel) (by decide +kernel) (by decide +kernel) (hpost _ (by simp))
      ⟨_, hl, _, _, hs, A, by simp, ?_, by rw [h3]; decide +kernel⟩
    have := hA _ _ e1
    rw [show (ru "Смеяться").map rusTab.lower = ru "смея" ++ ru "ться" by decide +kernel]
    exact this
  · obtain ⟨R, k1, k2, k3⟩ := C69_lemmatize_partial pipe_pipeline pipe_heads (fun l h => (pipe_texts l h).2.2.2.2) pipe_masc (ru "Смеяешься") 0
      (by decide +kernel) (by decide +kernel) (by decide +kernel) (by decide) false
    have hhead : Headword (ru "смеяться # нсв_нп 5 LID:14") (ru "смеяться") := by
      have := headword_of (line := ru "смеяться # нсв_нп 5 LID:14") (n := ru "смеяться") (d := ru "#") (t := ru "нсв_нп") (i := ru "5") (c := ru "LID:14") (by decide +kernel)
      rw [show plainWord (ru "смеяться") = ru "смеяться" by decide +kernel] at this
      exact this
    have hmem : (14, ru "смеяться") ∈ R := by
      have := k2 (hpost _ (by simp)) (14, ru "смеяться") ⟨_, hl, _, _, A, _, hs, by simp, hhead, ?_, by rw [h3]; decide +kernel, ?_⟩
      · simpa using this
      · have := hA _ _ e2
        rw [show (ru "Смеяешься").map rusTab.lower = ru "смея" ++ ru "ешься" by decide +kernel]
        exact this
      · rw [h2, h3]; decide +kernel
    refine ⟨R, hmem, fun b hb => ?_⟩
    obtain ⟨s, s1, _, s3⟩ := k3 [] none (some b) rfl (by simp) (by intro b' hb'; cases hb'; exact hb)
    exact ⟨s, s1, fun b' h' => s3 b' h' (List.ne_nil_of_mem hmem)⟩

end Libmorph
