import Verif.Lemmas.Commands
import Verif.Props.C80Src
/-
C94: the compilers as programs.
-/
namespace Libmorph
open Spec

section
variable (P : SourcePages) (F : IndexFormat) (depth : Nat)

/-- The two files of a compiler of tables: written when they can be created. -/
theorem writeTwo_eq (d : Disk) (bin sym image index : List Byte) :
    (d.creatable bin → d.creatable sym → writeTwo d bin sym image index = .exit 0 ((d.put bin image).put sym index)) ∧
    (d.creatable bin → d.creatable sym = Bool.false → writeTwo d bin sym image index = .exit 255 (d.put bin image)) ∧
    (d.creatable bin = Bool.false → writeTwo d bin sym image index = .exit 255 d) := by
  refine ⟨fun h1 h2 => ?_, fun h1 h2 => ?_, fun h1 => ?_⟩ <;> simp [writeTwo, h1, put_creatable, *]

/-- The words in use after some switches: the last -lang: counts. -/
def tfcWords (args : List (List Byte)) (w : List (List Byte × GramData)) : List (List Byte × GramData) :=
  args.foldl (fun w a => if a = litBytes "-lang:rus" then gramMapper else if a = litBytes "-lang:ukr" then ukrMapper else w) w

theorem tfcWords_keep (args : List (List Byte)) (w : List (List Byte × GramData)) (h1 : litBytes "-lang:rus" ∉ args) (h2 : litBytes "-lang:ukr" ∉ args) :
    tfcWords args w = w := by
  induction args generalizing w with
  | nil => rfl
  | cons a args ih =>
    simp only [List.mem_cons, not_or] at h1 h2
    rw [tfcWords, List.foldl_cons, if_neg (Ne.symm h1.1), if_neg (Ne.symm h2.1)]
    exact ih w h1.2 h2.2

theorem tfcWords_switches (args : List (List Byte)) (w : List (List Byte × GramData)) : tfcWords (args.filter isSwitch) w = tfcWords args w := by
  induction args generalizing w with
  | nil => rfl
  | cons a args ih =>
    by_cases h : isSwitch a = true
    · rw [List.filter_cons_of_pos h, tfcWords, tfcWords, List.foldl_cons, List.foldl_cons]
      exact ih _
    · rw [List.filter_cons_of_neg h, ih]
      conv_rhs => rw [tfcWords, List.foldl_cons]
      rw [if_neg, if_neg]
      · rfl
      · rintro rfl; exact h (by decide)
      · rintro rfl; exact h (by decide)

theorem tfcSwitches_fold (l : List (List Byte)) (h : ∀ a ∈ l, a ∈ [litBytes "-w", litBytes "-lang:rus", litBytes "-lang:ukr"]) (o : TfcOpts) :
    ∃ o', l.foldlM (fun o a => tfcSwitch a o) o = some o' ∧ o'.words = tfcWords l o.words := by
  induction l generalizing o with
  | nil => exact ⟨o, rfl, rfl⟩
  | cons a l ih =>
    have ha := h a List.mem_cons_self
    have hl : ∀ a ∈ l, a ∈ [litBytes "-w", litBytes "-lang:rus", litBytes "-lang:ukr"] := fun a ha => h a (List.mem_cons_of_mem _ ha)
    simp only [List.mem_cons, List.not_mem_nil, or_false] at ha
    rw [List.foldlM_cons]
    rcases ha with rfl | rfl | rfl
    · obtain ⟨o', h1, h2⟩ := ih hl { o with source1251 := Bool.true }
      exact ⟨o', h1, h2⟩
    · obtain ⟨o', h1, h2⟩ := ih hl { o with words := gramMapper }
      exact ⟨o', h1, h2⟩
    · obtain ⟨o', h1, h2⟩ := ih hl { o with words := ukrMapper }
      exact ⟨o', h1, h2⟩

/-- **C94, tfc.**  Called with three names and switches it knows, in whatever order: the source is compiled with the words of the language chosen last; nothing is
written if that fails; otherwise the image and the index go into the two files. -/
theorem C94_tfc (d : Disk) {args : List (List Byte)} {source bin sym : List Byte} (hn : namesOf args = [source, bin, sym])
    (hs : ∀ a ∈ args, isSwitch a → a ∈ [litBytes "-w", litBytes "-lang:rus", litBytes "-lang:ukr"]) :
    ∃ words, (litBytes "-lang:ukr" ∉ args → words = gramMapper) ∧
      (∀ pre post, args = pre ++ litBytes "-lang:rus" :: post → litBytes "-lang:ukr" ∉ post → words = gramMapper) ∧
      (∀ pre post, args = pre ++ litBytes "-lang:ukr" :: post → litBytes "-lang:rus" ∉ post → words = ukrMapper) ∧
      (tfcMainIn words P.from866 d.file depth source = none → tfcProgram P F depth args d = .exit 255 d) ∧
      ∀ image index, tfcMainIn words P.from866 d.file depth source = some (image, index) →
        (d.creatable bin → d.creatable sym → tfcProgram P F depth args d = .exit 0 ((d.put bin image).put sym (F.putFlex index))) ∧
        (d.creatable bin → d.creatable sym = Bool.false → tfcProgram P F depth args d = .exit 255 (d.put bin image)) ∧
        (d.creatable bin = Bool.false → tfcProgram P F depth args d = .exit 255 d) := by
  obtain ⟨o, h1, h2⟩ := tfcSwitches_fold (args.filter isSwitch) (fun a ha => hs a (List.mem_filter.1 ha).1 (List.mem_filter.1 ha).2) {}
  rw [tfcWords_switches] at h2
  have e : nameArgs tfcSwitch args {} [] = some (o, [source, bin, sym]) := by
    rw [nameArgs_all tfcSwitch args {} [] (by rw [hn]; simp), h1, hn]; rfl
  have hp : tfcProgram P F depth args d = match tfcMainIn o.words P.from866 d.file depth source with
      | some (image, index) => writeTwo d bin sym image (F.putFlex index)
      | none => .exit 255 d := by rw [tfcProgram, e]; rfl
  refine ⟨o.words, fun h => ?_, fun pre post he hpost => ?_, fun pre post he hpost => ?_, fun h => ?_, fun image index h => ?_⟩
  · rw [h2]
    have gen : ∀ l : List (List Byte), litBytes "-lang:ukr" ∉ l → tfcWords l gramMapper = gramMapper := by
      intro l hl
      induction l with
      | nil => rfl
      | cons a l ih =>
        simp only [List.mem_cons, not_or] at hl
        rw [tfcWords, List.foldl_cons, if_neg (Ne.symm hl.1)]
        split <;> exact ih hl.2
    exact gen args h
  · rw [h2, he, tfcWords, List.foldl_append, List.foldl_cons, if_pos rfl]
    have gen : ∀ l : List (List Byte), litBytes "-lang:ukr" ∉ l → tfcWords l gramMapper = gramMapper := by
      intro l hl
      induction l with
      | nil => rfl
      | cons a l ih =>
        simp only [List.mem_cons, not_or] at hl
        rw [tfcWords, List.foldl_cons, if_neg (Ne.symm hl.1)]
        split <;> exact ih hl.2
    exact gen post hpost
  · rw [h2, he, tfcWords, List.foldl_append, List.foldl_cons, if_neg (by decide), if_pos rfl]
    have gen : ∀ l : List (List Byte), litBytes "-lang:rus" ∉ l → tfcWords l ukrMapper = ukrMapper := by
      intro l hl
      induction l with
      | nil => rfl
      | cons a l ih =>
        simp only [List.mem_cons, not_or] at hl
        rw [tfcWords, List.foldl_cons, if_neg (Ne.symm hl.1)]
        split <;> exact ih hl.2
    exact gen post hpost
  · rw [hp, h]
  · rw [hp, h]
    exact writeTwo_eq d bin sym image (F.putFlex index)

/-- **C94, the switch -w of tfc.**  It is documented as "assume source tables use 1251 Windows Cyrillic instead of 866"; it never has any effect. -/
theorem C94_w_counterexample (args : List (List Byte)) (d : Disk) : tfcProgram P F depth args d = tfcProgram P F depth (args.filter (· ≠ litBytes "-w")) d := by
  have key : ∀ (l : List (List Byte)) (o o' : TfcOpts) (names : List (List Byte)), o.words = o'.words →
      (nameArgs tfcSwitch l o names).map (fun r => (r.1.words, r.2)) =
        (nameArgs tfcSwitch (l.filter (· ≠ litBytes "-w")) o' names).map fun r => (r.1.words, r.2) := by
    intro l
    induction l with
    | nil => intro o o' names h; simp [nameArgs, h]
    | cons a l ih =>
      intro o o' names h
      by_cases hw : a = litBytes "-w"
      · subst hw
        rw [List.filter_cons_of_neg (by simp), nameArgs, if_pos (by decide)]
        exact ih _ _ _ h
      · rw [List.filter_cons_of_pos (by simpa using hw), nameArgs, nameArgs]
        split
        · rw [tfcSwitch, tfcSwitch, if_neg hw, if_neg hw]
          split
          · exact ih _ _ _ rfl
          · split
            · exact ih _ _ _ rfl
            · rfl
        · split
          · exact ih _ _ _ h
          · simp [h]
  have h := key args {} {} [] rfl
  rw [tfcProgram, tfcProgram]
  cases h1 : nameArgs tfcSwitch args {} [] with
  | none =>
    cases h2 : nameArgs tfcSwitch (args.filter (· ≠ litBytes "-w")) {} [] with
    | none => rfl
    | some r => rw [h1, h2] at h; cases h
  | some r =>
    cases h2 : nameArgs tfcSwitch (args.filter (· ≠ litBytes "-w")) {} [] with
    | none => rw [h1, h2] at h; cases h
    | some r' =>
      rw [h1, h2] at h
      simp only [Option.map_some, Option.some.injEq, Prod.mk.injEq] at h
      obtain ⟨o, names⟩ := r
      obtain ⟨o', names'⟩ := r'
      simp only at h
      obtain ⟨h3, rfl⟩ := h
      rcases names with _ | ⟨a, _ | ⟨b, _ | ⟨c, _ | ⟨e, l⟩⟩⟩⟩ <;> simp [h3]

/-- **C94, makeich.**  As tfc; with -w the sources are taken to be in code page 1251. -/
theorem C94_makeich (d : Disk) {args : List (List Byte)} {source bin sym : List Byte} (hn : namesOf args = [source, bin, sym])
    (hs : ∀ a ∈ args, isSwitch a → a = litBytes "-w") (conv : List Byte → List Byte) (hconv : conv = if litBytes "-w" ∈ args then P.from1251 else P.from866) :
    (ichWritten conv d.file depth source = none → ichProgram P F depth args d = .exit 255 d) ∧
    ∀ image index, ichWritten conv d.file depth source = some (image, index) →
      (d.creatable bin → d.creatable sym → ichProgram P F depth args d = .exit 0 ((d.put bin image).put sym (F.putMix index))) ∧
      (d.creatable bin → d.creatable sym = Bool.false → ichProgram P F depth args d = .exit 255 (d.put bin image)) ∧
      (d.creatable bin = Bool.false → ichProgram P F depth args d = .exit 255 d) := by
  have fold : ∀ (l : List (List Byte)), (∀ a ∈ l, a = litBytes "-w") → ∀ c, l.foldlM (fun o a => ichSwitch P a o) c = some (if l = [] then c else P.from1251) := by
    intro l
    induction l with
    | nil => intro _ c; rfl
    | cons a l ih =>
      intro h c
      have := h a List.mem_cons_self
      subst this
      rw [List.foldlM_cons]
      show List.foldlM _ P.from1251 l = _
      rw [ih (fun a ha => h a (List.mem_cons_of_mem _ ha)), if_neg (by simp : ¬ litBytes "-w" :: l = [])]
      split <;> rfl
  have hc : (if args.filter isSwitch = [] then P.from866 else P.from1251) = conv := by
    rw [hconv]
    by_cases h : litBytes "-w" ∈ args
    · rw [if_pos h, if_neg]
      intro e
      rw [List.filter_eq_nil_iff] at e
      exact e _ h (by decide)
    · rw [if_neg h, if_pos]
      rw [List.filter_eq_nil_iff]
      intro a ha hsw
      exact h (hs a ha hsw ▸ ha)
  have e : nameArgs (ichSwitch P) args P.from866 [] = some (conv, [source, bin, sym]) := by
    rw [nameArgs_all (ichSwitch P) args P.from866 [] (by rw [hn]; simp), fold _ (fun a ha => hs a (List.mem_filter.1 ha).1 (List.mem_filter.1 ha).2), hn, hc]; rfl
  have hp : ichProgram P F depth args d = match ichWritten conv d.file depth source with
      | some (image, index) => writeTwo d bin sym image (F.putMix index)
      | none => .exit 255 d := by rw [ichProgram, e]; rfl
  refine ⟨fun h => ?_, fun image index h => ?_⟩
  · rw [hp, h]
  · rw [hp, h]
    exact writeTwo_eq d bin sym image (F.putMix index)

theorem foldlM_fails {α σ : Type} (f : σ → α → Option σ) {a : α} (hf : ∀ o, f o a = none) : ∀ (l : List α), a ∈ l → ∀ o, l.foldlM f o = none
  | b :: l, h, o => by
    rw [List.foldlM_cons]
    rcases List.mem_cons.1 h with rfl | h
    · rw [hf]; rfl
    · cases f o b with
      | none => rfl
      | some o' => exact foldlM_fails f hf l h o'

/-- **C94, refused.**  With fewer than three names, or with a switch they do not know (before a fourth name), both compilers of tables end with the status 255 and
touch no file. -/
theorem C94_refused (d : Disk) (args : List (List Byte)) :
    ((namesOf args).length < 3 → tfcProgram P F depth args d = .exit 255 d ∧ ichProgram P F depth args d = .exit 255 d) ∧
    ((namesOf args).length ≤ 3 → ∀ a ∈ args, isSwitch a →
      (a ∉ [litBytes "-w", litBytes "-lang:rus", litBytes "-lang:ukr"] → tfcProgram P F depth args d = .exit 255 d) ∧
      (a ≠ litBytes "-w" → ichProgram P F depth args d = .exit 255 d)) := by
  constructor
  · intro h
    constructor
    · rw [tfcProgram, nameArgs_all tfcSwitch args {} [] (by simp; omega)]
      cases (args.filter isSwitch).foldlM (fun o a => tfcSwitch a o) {} with
      | none => rfl
      | some o =>
        simp only [Option.map_some, List.nil_append]
        rcases hx : namesOf args with _ | ⟨x, _ | ⟨y, _ | ⟨z, l⟩⟩⟩ <;> first | rfl | (rw [hx] at h; simp at h; omega)
    · rw [ichProgram, nameArgs_all (ichSwitch P) args P.from866 [] (by simp; omega)]
      cases (args.filter isSwitch).foldlM (fun o a => ichSwitch P a o) P.from866 with
      | none => rfl
      | some o =>
        simp only [Option.map_some, List.nil_append]
        rcases hx : namesOf args with _ | ⟨x, _ | ⟨y, _ | ⟨z, l⟩⟩⟩ <;> first | rfl | (rw [hx] at h; simp at h; omega)
  · intro h a ha hsw
    constructor
    · intro hno
      simp only [List.mem_cons, List.not_mem_nil, or_false, not_or] at hno
      rw [tfcProgram, nameArgs_all tfcSwitch args {} [] (by simpa using h),
        foldlM_fails (fun o a => tfcSwitch a o) (a := a) (fun o => by simp [tfcSwitch, hno]) _ (List.mem_filter.2 ⟨ha, hsw⟩)]
      rfl
    · intro hno
      rw [ichProgram, nameArgs_all (ichSwitch P) args P.from866 [] (by simpa using h),
        foldlM_fails (fun o a => ichSwitch P a o) (a := a) (fun o => by simp [ichSwitch, hno]) _ (List.mem_filter.2 ⟨ha, hsw⟩)]
      rfl

/-- **C94, after the third name.**  A fourth name and everything behind it is not looked at, not even a switch that does not exist. -/
theorem C94_rest_counterexample (d : Disk) (pre : List (List Byte)) (x : List Byte) (rest : List (List Byte)) (h : (namesOf pre).length = 3) (hx : isSwitch x = Bool.false) :
    tfcProgram P F depth (pre ++ x :: rest) d = tfcProgram P F depth pre d ∧ ichProgram P F depth (pre ++ x :: rest) d = ichProgram P F depth pre d := by
  have hx' : x.head? ≠ some 45 := by simpa [isSwitch] using hx
  constructor
  · rw [tfcProgram, tfcProgram, nameArgs_fourth tfcSwitch pre x rest {} h hx']
  · rw [ichProgram, ichProgram, nameArgs_fourth (ichSwitch P) pre x rest P.from866 h hx']

/-- **C94, tables: what can have changed.**  Whatever the arguments: the status is 0 or 255; with 255 no file has changed, but that the image is there when the index could
not be created; with 0 only the two files have changed. -/
theorem C94_tables_changed (d : Disk) (args : List (List Byte)) (prog : ProgEnd) (hp : prog = tfcProgram P F depth args d ∨ prog = ichProgram P F depth args d) :
    (∃ d', prog = .exit 0 d' ∧ ∃ bin sym, ∀ p, p ≠ bin → p ≠ sym → d'.file p = d.file p) ∨ prog = .exit 255 d ∨
      ∃ bin image, prog = .exit 255 (d.put bin image) ∧ ∃ sym ∈ args, d.creatable sym = Bool.false := by
  have two : ∀ bin sym image index, sym ∈ args → prog = writeTwo d bin sym image index →
      (∃ d', prog = .exit 0 d' ∧ ∃ bin sym, ∀ p, p ≠ bin → p ≠ sym → d'.file p = d.file p) ∨ prog = .exit 255 d ∨
      ∃ bin image, prog = .exit 255 (d.put bin image) ∧ ∃ sym ∈ args, d.creatable sym = Bool.false := by
    intro bin sym image index hsym e
    obtain ⟨h1, h2, h3⟩ := writeTwo_eq d bin sym image index
    cases hb : d.creatable bin with
    | false => exact Or.inr (Or.inl (by rw [e, h3 hb]))
    | true =>
      cases hs : d.creatable sym with
      | false => exact Or.inr (Or.inr ⟨bin, image, by rw [e, h2 hb hs], sym, hsym, hs⟩)
      | true =>
        refine Or.inl ⟨_, by rw [e, h1 hb hs], bin, sym, fun p n1 n2 => ?_⟩
        rw [put_other _ _ _ _ n2, put_other _ _ _ _ n1]
  have mem : ∀ {σ : Type} (f : List Byte → σ → Option σ) (l : List (List Byte)) (o : σ) (names : List (List Byte)) r, nameArgs f l o names = some r →
      ∀ x ∈ r.2, x ∈ names ∨ x ∈ l := by
    intro σ f l
    induction l with
    | nil => intro o names r e x hx; cases e; exact Or.inl hx
    | cons a l ih =>
      intro o names r e x hx
      rw [nameArgs] at e
      split at e
      · cases hf : f a o with
        | none => rw [hf] at e; exact (Option.some_ne_none _ e.symm).elim
        | some o' => rw [hf] at e; exact (ih o' names r e x hx).imp id (List.mem_cons_of_mem _)
      · split at e
        · rcases ih o _ r e x hx with h | h
          · rcases List.mem_append.1 h with h | h
            · exact Or.inl h
            · exact Or.inr (List.mem_singleton.1 h ▸ List.mem_cons_self)
          · exact Or.inr (List.mem_cons_of_mem _ h)
        · cases e; exact Or.inl hx
  rcases hp with hp | hp
  · rw [tfcProgram] at hp
    cases hn : nameArgs tfcSwitch args {} [] with
    | none => rw [hn] at hp; exact Or.inr (Or.inl hp)
    | some r =>
      obtain ⟨o, names⟩ := r
      rw [hn] at hp
      rcases names with _ | ⟨a, _ | ⟨b, _ | ⟨c, _ | ⟨e, l⟩⟩⟩⟩
      · exact Or.inr (Or.inl hp)
      · exact Or.inr (Or.inl hp)
      · exact Or.inr (Or.inl hp)
      · simp only at hp
        have hc := (mem tfcSwitch args {} [] _ hn c (by simp)).resolve_left (by simp)
        cases ht : tfcMainIn o.words P.from866 d.file depth a with
        | none => rw [ht] at hp; exact Or.inr (Or.inl hp)
        | some q => rw [ht] at hp; exact two _ _ _ _ hc hp
      · exact Or.inr (Or.inl hp)
  · rw [ichProgram] at hp
    cases hn : nameArgs (ichSwitch P) args P.from866 [] with
    | none => rw [hn] at hp; exact Or.inr (Or.inl hp)
    | some r =>
      obtain ⟨o, names⟩ := r
      rw [hn] at hp
      rcases names with _ | ⟨a, _ | ⟨b, _ | ⟨c, _ | ⟨e, l⟩⟩⟩⟩
      · exact Or.inr (Or.inl hp)
      · exact Or.inr (Or.inl hp)
      · exact Or.inr (Or.inl hp)
      · simp only at hp
        have hc := (mem (ichSwitch P) args P.from866 [] _ hn c (by simp)).resolve_left (by simp)
        cases ht : ichWritten o d.file depth a with
        | none => rw [ht] at hp; exact Or.inr (Or.inl hp)
        | some q => rw [ht] at hp; exact two _ _ _ _ hc hp
      · exact Or.inr (Or.inl hp)

end

/-- **C94, Ukrainian.**  A description in Ukrainian words means what the Russian words for them mean. -/
theorem C94_ukrainian (ws : List (String × String)) (h : ∀ p ∈ ws, p ∈ ukrWords) (hne : ws ≠ []) (g : GramInfo) :
    mapInfoIn ukrMapper ([124].intercalate (ws.map fun p => ru p.1)) g = mapInfo ([124].intercalate (ws.map fun p => ru p.2)) g := by
  have h1 : ∀ w ∈ ws.map (fun p => ru p.1), 124 ∉ w ∧ w ≠ [] := by
    intro w hw
    obtain ⟨p, hp, rfl⟩ := List.mem_map.1 hw
    obtain ⟨_, _, a, b, _, _⟩ := ukr_token p.1 p.2 (h p hp)
    exact ⟨a, b⟩
  have h2 : ∀ w ∈ ws.map (fun p => ru p.2), 124 ∉ w ∧ w ≠ [] := by
    intro w hw
    obtain ⟨p, hp, rfl⟩ := List.mem_map.1 hw
    obtain ⟨_, _, _, _, a, b⟩ := ukr_token p.1 p.2 (h p hp)
    exact ⟨a, b⟩
  rw [mapInfoIn, mapInfo, splitOn_join _ (by simpa using hne) fun w hw => (h1 w hw).1, splitOn_join _ (by simpa using hne) fun w hw => (h2 w hw).1]
  simp only [if_neg (join_last _ fun w hw => (h1 w hw).2), if_neg (join_last _ fun w hw => (h2 w hw).2)]
  clear hne h1 h2
  induction ws generalizing g with
  | nil => rfl
  | cons p ws ih =>
    rw [List.map_cons, List.map_cons, List.foldlM_cons, List.foldlM_cons, (ukr_token p.1 p.2 (h p List.mem_cons_self)).1]
    cases mapFind gramMapper (ru p.2) with
    | none => rfl
    | some e => exact ih (fun p hp => h p (List.mem_cons_of_mem _ hp)) _

/-- Other words are refused. -/
theorem C94_ukrainian_unknown (s t : List Byte) (ht : t ∈ splitOn 124 s) (hne : t ≠ []) (hno : ∀ p ∈ ukrWords, t ≠ ru p.1) (g : GramInfo) : mapInfoIn ukrMapper s g = none := by
  have hf : mapFind ukrMapper t = none := by
    cases hx : mapFind ukrMapper t with
    | none => rfl
    | some d =>
      obtain ⟨p, hp, e⟩ := ukr_known t (by rw [hx]; rfl)
      exact (hno p hp e).elim
  rw [mapInfoIn]
  refine foldlM_fails _ (a := t) (fun o => by rw [hf]; rfl) _ ?_ g
  split
  · rename_i hl
    obtain ⟨a, e⟩ := List.getLast?_eq_some_iff.1 hl
    rw [e, List.dropLast_concat]
    rw [e, List.mem_append, List.mem_singleton] at ht
    exact ht.resolve_right hne
  · exact ht

end Libmorph
