import Verif.Lemmas.TabText
/-
The sources of tables: tables and included files.
-/
namespace Libmorph
open Spec

abbrev Blocks := List (List Byte × List (List Byte))

/-- What the commands must be. -/
structure CmdsGood (cmds : List (List Byte)) : Prop where
  solid : CmdsOk cmds
  apart : ∀ c ∈ cmds, c ∉ includeCmds

theorem includes_ok : CmdsOk includeCmds := by
  have : ∀ c ∈ includeCmds, ∀ x ∈ c, 32 < x := by decide +kernel
  intro c hc x hx
  have := this c hc x hx
  simp only [Blank]; omega

theorem tfcCmds_good : CmdsGood tfcCmds := by
  have : ∀ c ∈ tfcCmds, ∀ x ∈ c, 32 < x := by decide +kernel
  refine ⟨?_, by decide +kernel⟩
  intro c hc x hx
  have := this c hc x hx
  simp only [Blank]; omega

theorem ichCmds_good : CmdsGood ichCmds := by
  have : ∀ c ∈ ichCmds, ∀ x ∈ c, 32 < x := by decide +kernel
  refine ⟨?_, by decide +kernel⟩
  intro c hc x hx
  have := this c hc x hx
  simp only [Blank]; omega

theorem includes_eq : includeCmds = includeWords := by decide +kernel
theorem tfcCmds_eq : tfcCmds = tfcWords := by decide +kernel
theorem ichCmds_eq : ichCmds = ichWords := by decide +kernel

theorem open_eq : litBytes "{" = [123] := by decide +kernel
theorem close_eq : litBytes "}" = [125] := by decide +kernel

theorem command_apart {cmds : List (List Byte)} (h : CmdsGood cmds) {t x : List Byte} (ht : CommandText cmds t x) : anyCommand includeCmds t = none := by
  cases e : anyCommand includeCmds t with
  | none => rfl
  | some r =>
    rw [anyCommand_iff includes_ok] at e
    obtain ⟨c, hc, e⟩ := e
    obtain ⟨c', hc', sep, rest, rfl, hb, _⟩ := ht
    have e' : hasCommand c' (c' ++ sep :: rest) = some rest := (hasCommand_iff _ _ _).2 ⟨sep, rfl, hb⟩
    have := (hasCommand_unique (includes_ok c hc) (h.solid c' hc') e e').1
    subst this
    exact (h.apart _ hc' hc).elim

/-- A step between tables. -/
theorem step_top {cmds : List (List Byte)} (hc : CmdsGood cmds) (inc : List Byte → Option Blocks) (acc : Blocks) (t : List Byte) (s' : Blocks × TabMode) :
    tabStep cmds inc (acc, .top) t = some s' ↔
      (∃ name l, CommandText includeWords t name ∧ inc name = some l ∧ s' = (acc ++ l, .top)) ∨ (∃ h, CommandText cmds t h ∧ s' = (acc, .header h)) := by
  rw [← includes_eq]
  simp only [tabStep]
  constructor
  · intro h
    split at h
    · rename_i r hr
      split at h
      · simp at h
      · rename_i hne
        rw [Option.map_eq_some_iff] at h
        obtain ⟨l, h1, rfl⟩ := h
        exact Or.inl ⟨_, l, (command_iff includes_ok t _).1 ⟨r, hr, rfl, hne⟩, h1, rfl⟩
    · split at h
      · rename_i r hr
        split at h
        · simp at h
        · rename_i hne
          cases h
          exact Or.inr ⟨_, (command_iff hc.solid t _).1 ⟨r, hr, rfl, hne⟩, rfl⟩
      · simp at h
  · rintro (⟨name, l, h1, h2, rfl⟩ | ⟨h, h1, rfl⟩)
    · obtain ⟨r, h3, h4, h5⟩ := (command_iff includes_ok t name).2 h1
      simp [h3, h4, h4 ▸ h5, h2]
    · rw [command_apart hc h1]
      obtain ⟨r, h3, h4, h5⟩ := (command_iff hc.solid t h).2 h1
      simp [h3, h4, h4 ▸ h5]

/-- What follows, by the state. -/
def ModeSays (cmds : List (List Byte)) (conv : List Byte → List Byte) (fs : List Byte → Option (List Byte)) (path : List Byte) (acc l : Blocks)
    (ts : List (List Byte)) : TabMode → Prop
  | .top => ∃ l', TextsSay cmds conv fs path ts l' ∧ l = acc ++ l'
  | .header h => ∃ body ts' l', ts = [123] :: body ++ [125] :: ts' ∧ [125] ∉ body ∧ TextsSay cmds conv fs path ts' l' ∧ l = acc ++ (h, body) :: l'
  | .body h lines => ∃ body ts' l', ts = body ++ [125] :: ts' ∧ [125] ∉ body ∧ TextsSay cmds conv fs path ts' l' ∧ l = acc ++ (h, lines.reverse ++ body) :: l'

theorem fold_says {cmds : List (List Byte)} (hc : CmdsGood cmds) {conv : List Byte → List Byte} {fs : List Byte → Option (List Byte)} {path : List Byte}
    {inc : List Byte → Option Blocks} (hinc : ∀ name l, inc name = some l → FileSays cmds conv fs (folderOf path ++ name) l) :
    ∀ (ts : List (List Byte)) (acc : Blocks) (m : TabMode) (l : Blocks), ts.foldlM (tabStep cmds inc) (acc, m) = some (l, .top) →
      ModeSays cmds conv fs path acc l ts m
  | [], acc, m, l, h => by
    simp only [List.foldlM_nil, pure, Option.some.injEq, Prod.mk.injEq] at h
    obtain ⟨rfl, rfl⟩ := h
    exact ⟨[], .nil, by simp⟩
  | t :: ts, acc, m, l, h => by
    rw [List.foldlM_cons] at h
    simp only [bind, Option.bind_eq_some_iff] at h
    obtain ⟨⟨acc', m'⟩, h1, h2⟩ := h
    have ih := fold_says hc hinc ts acc' m' l h2
    cases m with
    | top =>
      rw [step_top hc] at h1
      rcases h1 with ⟨name, l1, h1, h3, e⟩ | ⟨hd, h1, e⟩
      · cases e
        obtain ⟨l', h4, rfl⟩ := ih
        obtain ⟨file, ts', f1, f2, f3⟩ := hinc name l1 h3
        exact ⟨l1 ++ l', .incl h1 ((beside_iff _ _ _).1 rfl) f1 f2 f3 h4, by simp⟩
      · cases e
        obtain ⟨body, ts', l', rfl, h4, h5, rfl⟩ := ih
        exact ⟨(hd, body) :: l', .table h1 h4 h5, rfl⟩
    | header hd =>
      simp only [tabStep, open_eq] at h1
      split at h1
      · rename_i e
        subst e
        cases h1
        obtain ⟨body, ts', l', rfl, h4, h5, rfl⟩ := ih
        exact ⟨body, ts', l', rfl, h4, h5, rfl⟩
      · simp at h1
    | body hd lines =>
      simp only [tabStep, close_eq] at h1
      split at h1
      · rename_i e
        subst e
        cases h1
        obtain ⟨l', h4, rfl⟩ := ih
        exact ⟨[], ts, l', rfl, by simp, h4, by simp⟩
      · rename_i e
        cases h1
        obtain ⟨body, ts', l', rfl, h4, h5, rfl⟩ := ih
        exact ⟨t :: body, ts', l', rfl, by simp [h4, Ne.symm e], h5, by simp⟩

theorem tabFile_says {cmds : List (List Byte)} (hc : CmdsGood cmds) {conv : List Byte → List Byte} {fs : List Byte → Option (List Byte)} (hr : Readable conv fs) :
    ∀ (depth : Nat) (path : List Byte) (l : Blocks), tabFile cmds conv fs depth path = some l → FileSays cmds conv fs path l
  | 0, path, l, h => by simp [tabFile] at h
  | depth + 1, path, l, h => by
    rw [tabFile] at h
    split at h
    · simp at h
    · rename_i file hf
      split at h
      · rename_i l' hl
        cases h
        have := fold_says hc (fun name l => tabFile_says hc hr depth _ l) _ _ _ _ hl
        obtain ⟨l'', h1, rfl⟩ := this
        refine ⟨file, _, hf, (srcTexts_iff hr.2 (hr.1 path file hf) _).1 rfl, ?_⟩
        simpa using h1
      · simp at h

theorem tabStep_mono (cmds : List (List Byte)) {inc inc' : List Byte → Option Blocks} (h : ∀ n l, inc n = some l → inc' n = some l)
    (s s' : Blocks × TabMode) (t : List Byte) (hs : tabStep cmds inc s t = some s') : tabStep cmds inc' s t = some s' := by
  obtain ⟨acc, m⟩ := s
  cases m with
  | top =>
    simp only [tabStep] at hs ⊢
    split
    · rename_i r hr
      rw [hr] at hs
      simp only at hs
      split at hs
      · simp at hs
      · rename_i hne
        rw [if_neg hne]
        rw [Option.map_eq_some_iff] at hs
        obtain ⟨l, h1, h2⟩ := hs
        rw [h _ _ h1]
        exact congrArg some h2
    · rename_i hr
      rw [hr] at hs
      exact hs
  | header _ => exact hs
  | body _ _ => exact hs

theorem foldlM_mono {α β : Type} {f g : α → β → Option α} (h : ∀ a b a', f a b = some a' → g a b = some a') :
    ∀ (l : List β) (a a' : α), l.foldlM f a = some a' → l.foldlM g a = some a'
  | [], _, _, e => e
  | b :: l, a, a', e => by
    rw [List.foldlM_cons] at e ⊢
    simp only [bind, Option.bind_eq_some_iff] at e ⊢
    obtain ⟨x, h1, h2⟩ := e
    exact ⟨x, h _ _ _ h1, foldlM_mono h l _ _ h2⟩

theorem tabFile_mono (cmds : List (List Byte)) (conv : List Byte → List Byte) (fs : List Byte → Option (List Byte)) :
    ∀ (d d' : Nat) (path : List Byte) (l : Blocks), d ≤ d' → tabFile cmds conv fs d path = some l → tabFile cmds conv fs d' path = some l
  | 0, _, _, _, _, h => by simp [tabFile] at h
  | d + 1, 0, _, _, hd, _ => by omega
  | d + 1, d' + 1, path, l, hd, h => by
    rw [tabFile] at h ⊢
    split at h
    · simp at h
    · rename_i file hf
      split at h
      · rename_i l' hl
        cases h
        rw [foldlM_mono (fun a b a' => tabStep_mono cmds (fun n l => tabFile_mono cmds conv fs d d' _ l (by omega)) a a' b) _ _ _ hl]
      · simp at h

theorem body_fold (cmds : List (List Byte)) (inc : List Byte → Option Blocks) (acc : Blocks) (h : List Byte) : ∀ (body lines : List (List Byte)), [125] ∉ body →
    body.foldlM (tabStep cmds inc) (acc, .body h lines) = some (acc, .body h (body.reverse ++ lines))
  | [], lines, _ => rfl
  | t :: body, lines, hb => by
    simp only [List.mem_cons, not_or] at hb
    rw [List.foldlM_cons]
    simp only [tabStep, close_eq, if_neg (Ne.symm hb.1), bind, Option.bind_some]
    rw [body_fold cmds inc acc h body (t :: lines) hb.2]
    simp

theorem texts_fold {cmds : List (List Byte)} (hc : CmdsGood cmds) {conv : List Byte → List Byte} {fs : List Byte → Option (List Byte)} (hr : Readable conv fs)
    {path : List Byte} {ts : List (List Byte)} {l : Blocks} (h : TextsSay cmds conv fs path ts l) :
    ∃ d, ∀ d' ≥ d, ∀ acc, ts.foldlM (tabStep cmds fun name => tabFile cmds conv fs d' (folderOf path ++ name)) (acc, .top) = some (acc ++ l, .top) := by
  induction h with
  | nil => exact ⟨0, fun d' _ acc => by simp⟩
  | @table path t h body ts l h1 h2 _ ih =>
    obtain ⟨d, ih⟩ := ih
    refine ⟨d, fun d' hd acc => ?_⟩
    rw [List.cons_append, List.foldlM_cons, (step_top hc _ acc t (acc, .header h)).2 (Or.inr ⟨h, h1, rfl⟩)]
    simp only [bind, Option.bind_some]
    rw [List.cons_append, List.foldlM_cons]
    have e : ∀ inc, tabStep cmds inc (acc, .header h) [123] = some (acc, .body h []) := by intro inc; simp [tabStep, open_eq]
    rw [e]
    simp only [bind, Option.bind_some]
    rw [List.foldlM_append, body_fold _ _ _ _ _ _ h2]
    simp only [bind, Option.bind_some, List.append_nil]
    rw [List.foldlM_cons]
    have e : ∀ inc, tabStep cmds inc (acc, .body h body.reverse) [125] = some (acc ++ [(h, body)], .top) := by intro inc; simp [tabStep, close_eq]
    rw [e]
    simp only [bind, Option.bind_some]
    rw [ih d' hd]
    simp
  | @incl path t name p file ts' ts l' l h1 h2 h3 h4 _ _ ih1 ih2 =>
    obtain ⟨d1, ih1⟩ := ih1
    obtain ⟨d2, ih2⟩ := ih2
    refine ⟨d1 + 1 + d2, fun d' hd acc => ?_⟩
    obtain ⟨d'', rfl⟩ : ∃ d'', d' = d'' + 1 := ⟨d' - 1, by omega⟩
    have hp := (beside_iff _ _ _).2 h2
    have hi : tabFile cmds conv fs (d'' + 1) (folderOf path ++ name) = some l' := by
      rw [hp, tabFile, h3]
      simp only
      rw [(srcTexts_iff hr.2 (hr.1 _ _ h3) _).2 h4, ih1 d'' (by omega)]
      rfl
    rw [List.foldlM_cons, (step_top hc _ acc t (acc ++ l', .top)).2 (Or.inl ⟨name, l', h1, hi, rfl⟩)]
    simp only [bind, Option.bind_some]
    rw [ih2 _ (by omega)]
    simp

/-- The tables of a source. -/
theorem tabFile_iff {cmds : List (List Byte)} (hc : CmdsGood cmds) {conv : List Byte → List Byte} {fs : List Byte → Option (List Byte)} (hr : Readable conv fs)
    (path : List Byte) (l : Blocks) : (∃ depth, tabFile cmds conv fs depth path = some l) ↔ FileSays cmds conv fs path l := by
  constructor
  · rintro ⟨d, h⟩
    exact tabFile_says hc hr d path l h
  · rintro ⟨file, ts, h1, h2, h3⟩
    obtain ⟨d, h⟩ := texts_fold hc hr h3
    refine ⟨d + 1, ?_⟩
    rw [tabFile, h1]
    simp only
    rw [(srcTexts_iff hr.2 (hr.1 _ _ h1) _).2 h2, h d (Nat.le_refl d)]
    rfl

end Libmorph
