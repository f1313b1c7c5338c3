import Mathlib.Algebra.Order.Ring.Rat
import Mathlib.Tactic.FieldSimp
import Mathlib.Tactic.Ring
import Mathlib.Algebra.Order.BigOperators.Group.List
import Verif.Spec.Psp
import Verif.Lemmas.LemmEnd
/-
Lemmas on the program make-psp-tab.
-/
namespace Libmorph
open Spec

/-! ### The cells -/

theorem addAt_length (l : List Rat) (i : Nat) (x : Rat) : (addAt l i x).length = max l.length (i + 1) := by
  simp [addAt]; omega

theorem getD_grow {α : Type} (l : List α) (n i : Nat) (d : α) : (l ++ List.replicate n d).getD i d = l.getD i d := by
  simp only [List.getD_eq_getElem?_getD, List.getElem?_append, List.getElem?_replicate]
  split
  · rfl
  · rw [List.getElem?_eq_none (by omega)]
    split <;> rfl

theorem getD_set {α : Type} (l : List α) (i j : Nat) (x d : α) (hi : i < l.length) : (l.set i x).getD j d = if i = j then x else l.getD j d := by
  simp only [List.getD_eq_getElem?_getD, List.getElem?_set]
  split
  · subst_vars; simp [hi]
  · rfl

theorem addAt_getD (l : List Rat) (i j : Nat) (x : Rat) : (addAt l i x).getD j 0 = l.getD j 0 + if i = j then x else 0 := by
  simp only [addAt]
  rw [getD_set _ _ _ _ _ (by simp; omega), getD_grow, getD_grow]
  split
  · subst_vars; rfl
  · simp

/-- The forms of a lexeme, added. -/
def addForms (n : Nat) (cols : List Nat) (l : List Rat) : List Rat := cols.foldl (fun l c => addAt l c (1 / (n : Rat))) l

theorem addForms_length (n : Nat) (cols : List Nat) (l : List Rat) (f : Nat) :
    f < (addForms n cols l).length ↔ f < l.length ∨ ∃ c ∈ cols, f ≤ c := by
  induction cols generalizing l with
  | nil => simp [addForms]
  | cons c cols ih =>
    rw [addForms, List.foldl_cons, ← addForms, ih, addAt_length]
    simp only [List.mem_cons, exists_eq_or_imp]
    rw [lt_max_iff, Nat.lt_succ_iff]
    tauto

theorem addForms_getD (n : Nat) (cols : List Nat) (l : List Rat) (f : Nat) :
    (addForms n cols l).getD f 0 = l.getD f 0 + (cols.count f : Rat) / (n : Rat) := by
  induction cols generalizing l with
  | nil => simp [addForms]
  | cons c cols ih =>
    rw [addForms, List.foldl_cons, ← addForms, ih, addAt_getD, List.count_cons]
    by_cases h : c = f
    · subst h
      simp
      ring
    · rw [if_neg h]
      simp [h]

/-- A vote, cast. -/
def castVote (m : List PspRow) (v : Vote) : List PspRow :=
  let m := m ++ List.replicate (v.row + 1 - m.length) ({} : PspRow)
  m.set v.row ⟨(m.getD v.row {}).weight + v.share, addForms v.cols.length v.cols (m.getD v.row {}).forms⟩

theorem votesFor_snoc (V : List Vote) (v : Vote) (p : Nat) : votesFor (V ++ [v]) p = votesFor V p ++ if v.row = p then [v] else [] := by
  simp only [votesFor, List.filter_append, List.filter_cons, List.filter_nil]
  simp

theorem castVote_tallies {V : List Vote} {m : List PspRow} (h : Tallies V m) (v : Vote) : Tallies (V ++ [v]) (castVote m v) := by
  have hlen : (castVote m v).length = max m.length (v.row + 1) := by simp [castVote]; omega
  have hget : ∀ p, (castVote m v).getD p {} = if v.row = p then
      ⟨(m.getD v.row {}).weight + v.share, addForms v.cols.length v.cols (m.getD v.row {}).forms⟩ else m.getD p {} := by
    intro p
    simp only [castVote]
    rw [getD_set _ _ _ _ _ (by simp; omega), getD_grow, getD_grow]
  refine ⟨fun p => ?_, fun p => ?_, fun p f => ?_, fun p f => ?_⟩
  · rw [hlen, lt_max_iff, h.rows, Nat.lt_succ_iff]
    simp [or_and_right, exists_or]
  · rw [hget, rowWeight, votesFor_snoc]
    split
    · rename_i e; subst e
      simp [-List.getD_eq_getElem?_getD, h.weight, rowWeight]
    · simp [-List.getD_eq_getElem?_getD, h.weight, rowWeight]
  · rw [hget]
    split
    · rename_i e; subst e
      rw [addForms_length, h.cols]
      simp [or_and_right, exists_or]
    · rename_i e
      rw [h.cols]
      simp [or_and_right, exists_or, e]
  · rw [hget, cellWeight, votesFor_snoc]
    split
    · rename_i e; subst e
      simp [-List.getD_eq_getElem?_getD, addForms_getD, h.cells, cellWeight]
    · simp [-List.getD_eq_getElem?_getD, h.cells, cellWeight]

theorem tallies_nil : Tallies [] [] := ⟨by simp, by simp [rowWeight, votesFor], by simp, by simp [cellWeight, votesFor]⟩

theorem castVotes_tallies (V : List Vote) : Tallies V (V.foldl castVote []) := by
  induction V using List.reverseRecOn with
  | nil => exact tallies_nil
  | append_singleton V v ih =>
    rw [List.foldl_append, List.foldl_cons, List.foldl_nil]
    exact castVote_tallies ih v

/-! ### The program reads the answer -/

theorem pspForms_eq (T : PspTool) (row n : Nat) (pre gs rest : List Gram) (l : List Rat) :
    pspForms T row n (pre ++ gs ++ rest) pre.length gs.length l = some ((gs.map fun g => T.formOf row g.idForm).foldl (fun l c => addAt l c (1 / (n : Rat))) l) := by
  induction gs generalizing pre l with
  | nil => rfl
  | cons g gs ih =>
    have h1 : (pre ++ g :: gs ++ rest)[pre.length]? = some g := by simp
    rw [List.length_cons, pspForms, h1]
    simp only [bind, Option.bind_some]
    have := ih (pre ++ [g]) (addAt l (T.formOf row g.idForm) (1 / (n : Rat)))
    simp only [List.append_assoc, List.length_append, List.length_cons, List.length_nil, List.cons_append, List.nil_append] at this ⊢
    simpa using this

theorem pspLexeme_eq (T : PspTool) (n : Nat) (pre gs rest : List Gram) (r : Lemm) (hp : r.pgrams = pre.length) (hn : r.ngrams = gs.length) (hne : gs ≠ [])
    (m : List PspRow) :
    pspLexeme T n (pre ++ gs ++ rest) r m = some (((gs.head?.bind fun g =>
      if T.passes n (T.rowOf g.wdInfo) g.idForm then some (⟨T.rowOf g.wdInfo, 1 / (n : Rat), gs.map fun x => T.formOf (T.rowOf g.wdInfo) x.idForm⟩ : Vote) else none).toList).foldl
        castVote m) := by
  cases gs with
  | nil => exact absurd rfl hne
  | cons g gs =>
    have h1 : (pre ++ g :: gs ++ rest)[r.pgrams]? = some g := by rw [hp]; simp
    rw [pspLexeme, h1]
    simp only [bind, Option.bind_some, List.head?_cons]
    split
    · rename_i hps
      have h2 := pspForms_eq T (T.rowOf g.wdInfo) (g :: gs).length pre (g :: gs) rest
      rw [← hp, ← hn] at h2
      rw [h2]
      simp only [Option.bind_some, Option.toList_some, List.foldl_cons, List.foldl_nil, castVote, addForms, List.length_map, hn, pure]
    · simp [pure]

theorem pspLexemes_eq (T : PspTool) (n : Nat) (gs : List LemmGroup) (hg : ∀ g ∈ gs, g.1.grs ≠ []) (pre : List Gram) (L : List Lemm) (rest : List Gram)
    (tl : List Lemm) (m : List PspRow) :
    pspLexemes T n (L ++ groupRecords false true 0 pre.length gs ++ tl) (pre ++ groupGrams gs ++ rest) L.length gs.length m =
      some ((gs.filterMap fun g => g.counted.head?.bind fun x =>
        if T.passes n (T.rowOf x.wdInfo) x.idForm then some (⟨T.rowOf x.wdInfo, 1 / (n : Rat), g.counted.map fun y => T.formOf (T.rowOf x.wdInfo) y.idForm⟩ : Vote) else none).foldl
          castVote m) := by
  induction gs generalizing pre L m with
  | nil => rfl
  | cons g gs ih =>
    have hc : g.counted ≠ [] := by simpa [LemmGroup.counted] using hg g (by simp)
    have h1 : (L ++ groupRecords false true 0 pre.length (g :: gs) ++ tl)[L.length]? = some ⟨g.1.id, 0, pre.length, g.1.grs.length⟩ := by
      simp [groupRecords]
    rw [List.length_cons, pspLexemes, h1]
    simp only [bind, Option.bind_some]
    have h2 := pspLexeme_eq T n pre g.counted (g.2.flatMap g.adds ++ groupGrams gs ++ rest) ⟨g.1.id, 0, pre.length, g.1.grs.length⟩ rfl
      (by simp [LemmGroup.counted]) hc m
    have e1 : pre ++ groupGrams (g :: gs) ++ rest = pre ++ g.counted ++ (g.2.flatMap g.adds ++ groupGrams gs ++ rest) := by
      simp [groupGrams, LemmGroup.written, List.append_assoc]
    rw [e1, h2]
    simp only [Option.bind_some]
    have h3 := ih (fun x hx => hg x (List.mem_cons_of_mem _ hx)) (pre ++ g.written) (L ++ [⟨g.1.id, 0, pre.length, g.1.grs.length⟩])
      ((((g.counted.head?.bind fun x => if T.passes n (T.rowOf x.wdInfo) x.idForm then
        some (⟨T.rowOf x.wdInfo, 1 / (n : Rat), g.counted.map fun y => T.formOf (T.rowOf x.wdInfo) y.idForm⟩ : Vote) else none).toList).foldl castVote m))
    have e2 : L ++ groupRecords false true 0 pre.length (g :: gs) ++ tl =
        L ++ [⟨g.1.id, 0, pre.length, g.1.grs.length⟩] ++ groupRecords false true 0 (pre ++ g.written).length gs ++ tl := by
      simp [groupRecords]
    have e3 : pre ++ g.counted ++ (g.2.flatMap g.adds ++ groupGrams gs ++ rest) = pre ++ g.written ++ groupGrams gs ++ rest := by
      simp [LemmGroup.written, List.append_assoc]
    rw [e2, e3]
    rw [show L.length + 1 = (L ++ [(⟨g.1.id, 0, pre.length, g.1.grs.length⟩ : Lemm)]).length by simp]
    rw [h3, List.filterMap_cons]
    congr 1
    generalize (g.counted.head?.bind fun x => if T.passes n (T.rowOf x.wdInfo) x.idForm then
        some (⟨T.rowOf x.wdInfo, 1 / (n : Rat), g.counted.map fun y => T.formOf (T.rowOf x.wdInfo) y.idForm⟩ : Vote) else none) = o
    cases o <;> simp

/-- What the program does with an outcome of the library. -/
def pspEnd (T : PspTool) (gs : List LemmGroup) : LemmEnd → Option (List Vote)
  | .done => some (T.votes (gs.map LemmGroup.counted))
  | .code _ => some []
  | .undefined => none

theorem pspWord_eq (T : PspTool) {call : List Lemm → List Gram → List Byte → Option (Int × LemmState)} {L : List Lemm} {G : List Gram} {w : List Byte}
    {gs : List LemmGroup} {e : LemmEnd} (h : AnswersAs (some L) none (some G) gs (call L G w) e) (hg : ∀ g ∈ gs, g.1.grs ≠ []) (m : List PspRow) :
    pspWord T call L G w m = (pspEnd T gs e).map fun V => V.foldl castVote m := by
  cases e with
  | done =>
    obtain ⟨s, h1, h2, -⟩ := h
    obtain ⟨tl, ht, -⟩ := h2.lemms
    have hgr := h2.grams
    simp only [Option.isSome_some, Option.isSome_none, Option.map_some, if_true] at ht hgr
    rw [pspWord, h1]
    simp only [bind, Option.bind_some, pspEnd, Option.map_some]
    cases gs with
    | nil => simp [PspTool.votes, pure]
    | cons g gs =>
      rw [if_pos (by simp), ht, hgr]
      simp only [Option.bind_some, Int.toNat_natCast]
      have := pspLexemes_eq T (g :: gs).length (g :: gs) hg [] [] (G.drop (groupGrams (g :: gs)).length) tl m
      simp only [List.nil_append, List.length_nil] at this
      rw [this, PspTool.votes, List.filterMap_map, List.length_map]
      rfl
  | code r =>
    obtain ⟨s, h1, h2, -⟩ := h
    rw [pspWord, h1]
    simp only [bind, Option.bind_some, pspEnd, Option.map_some]
    have hr : ¬ r > 0 := by
      rcases h2 with ⟨e, -⟩ | ⟨e, -⟩ | ⟨e, -⟩ <;> subst e <;> decide
    rw [if_neg hr]
    rfl
  | undefined =>
    rw [pspWord, show call L G w = none from h]
    rfl

theorem pspAll_eq (T : PspTool) {call : List Lemm → List Gram → List Byte → Option (Int × LemmState)} {stack : Nat → List Lemm × List Gram}
    (ans : List Byte → Option (List Vote)) (ws : List (List Byte))
    (h : ∀ w ∈ ws, ∀ k m, pspWord T call (stack k).1 (stack k).2 w m = (ans w).map fun V => V.foldl castVote m) (k : Nat) (m : List PspRow) :
    pspAll T call stack ws k m = (ws.mapM ans).map fun Vs => Vs.flatten.foldl castVote m := by
  induction ws generalizing k m with
  | nil => rfl
  | cons w ws ih =>
    rw [pspAll, h w (by simp), List.mapM_cons]
    cases ans w with
    | none => rfl
    | some V =>
      simp only [bind, Option.map_some, Option.bind_some]
      rw [ih (fun x hx => h x (List.mem_cons_of_mem _ hx))]
      cases ws.mapM ans <;> simp [pure]

/-! ### The words -/

theorem pspWordsN_cut (T : PspTool) (hT : ∀ c, T.skip c = Bool.false → T.take c = Bool.true) (n : Nat) (s : List Byte) (hn : s.length < n) :
    ∃ ws, Cut (T.skip · = Bool.true) (T.take · = Bool.true) s ws ∧ pspWordsN T n s = ws.filter fun w => 3 < w.length := by
  induction n generalizing s with
  | zero => omega
  | succ n ih =>
    rw [pspWordsN]
    split
    · rename_i h; subst h
      exact ⟨[], .gap (by simp), rfl⟩
    · have hall : ∀ c ∈ s.takeWhile T.skip, T.skip c = Bool.true := fun c hc => by
        have := List.all_takeWhile (l := s) (p := T.skip)
        rw [List.all_eq_true] at this
        exact this c hc
      have e := List.takeWhile_append_dropWhile (p := T.skip) (l := s)
      have hhead : ∀ c, (s.dropWhile T.skip).head? = some c → T.skip c = Bool.false := fun c hc => by
        have := List.head?_dropWhile_not T.skip s
        rw [hc] at this
        simpa using this
      generalize s.dropWhile T.skip = t at e hhead ⊢
      cases t with
      | nil =>
        refine ⟨[], ?_, ?_⟩
        · rw [← e, List.append_nil]
          exact .gap hall
        · simp only [List.takeWhile_nil, List.dropWhile_nil, List.length_nil]
          cases n with
          | zero => rfl
          | succ n => rfl
      | cons c t =>
        have hc := hhead c rfl
        have htk := hT c hc
        have e2 := List.takeWhile_append_dropWhile (p := T.take) (l := c :: t)
        have hlt : ((c :: t).dropWhile T.take).length < n := by
          rw [List.dropWhile_cons_of_pos htk]
          have h1 := (List.dropWhile_suffix T.take (l := t)).length_le
          have h2 : s.length = (s.takeWhile T.skip).length + (c :: t).length := by rw [← List.length_append, e]
          simp at h2
          omega
        obtain ⟨ws, h1, h2⟩ := ih _ hlt
        refine ⟨(c :: t).takeWhile T.take :: ws, ?_, ?_⟩
        · have := Cut.word (skip := (T.skip · = Bool.true)) (take := (T.take · = Bool.true)) (g := s.takeWhile T.skip) (w := (c :: t).takeWhile T.take)
            (rest := (c :: t).dropWhile T.take) hall (by rw [List.takeWhile_cons_of_pos htk]; simp)
            (by rw [List.takeWhile_cons_of_pos htk]; simp [hc])
            (fun x hx => by
              have := List.all_takeWhile (l := c :: t) (p := T.take)
              rw [List.all_eq_true] at this
              exact this x hx)
            (fun x hx => by
              have := List.head?_dropWhile_not T.take (c :: t)
              rw [hx] at this
              simpa using this) h1
          rw [List.append_assoc, e2, e] at this
          exact this
        · simp only [h2, List.filter_cons]
          simp only [gt_iff_lt, decide_eq_true_eq]

theorem Cut.unique {skip take : Nat → Prop} (hT : ∀ c, ¬ skip c → take c) {s : List Nat} {ws vs : List (List Nat)} (h : Cut skip take s ws)
    (k : Cut skip take s vs) : ws = vs := by
  have split : ∀ {P : Nat → Prop} {a b c d : List Nat}, (∀ x ∈ a, P x) → (∀ x ∈ c, P x) → (∀ x, b.head? = some x → ¬ P x) → (∀ x, d.head? = some x → ¬ P x) →
      a ++ b = c ++ d → a = c ∧ b = d := by
    intro P a
    induction a with
    | nil =>
      intro b c d _ h2 h3 _ e
      cases c with
      | nil => exact ⟨rfl, e⟩
      | cons x c => exact absurd (h2 x (by simp)) (h3 x (by simp at e; simp [e]))
    | cons y a ih =>
      intro b c d h1 h2 h3 h4 e
      cases c with
      | nil => exact absurd (h1 y (by simp)) (h4 y (by simp at e; simp [← e]))
      | cons x c =>
        simp only [List.cons_append, List.cons.injEq] at e
        obtain ⟨i1, i2⟩ := ih (fun z hz => h1 z (by simp [hz])) (fun z hz => h2 z (by simp [hz])) h3 h4 e.2
        exact ⟨by rw [e.1, i1], i2⟩
  induction h generalizing vs with
  | gap hg =>
    cases k with
    | gap _ => rfl
    | @word g w rest ws h1 h2 h3 h4 h5 h6 =>
      cases w with
      | nil => exact absurd rfl h2
      | cons c w => exact absurd (hg c (by simp)) (h3 c rfl)
  | @word g w rest ws h1 h2 h3 h4 h5 h6 ih =>
    generalize hs : g ++ w ++ rest = s at k
    cases k with
    | gap hg =>
      cases w with
      | nil => exact absurd rfl h2
      | cons c w => exact absurd (hg c (by simp [← hs])) (h3 c rfl)
    | @word g' w' rest' ws' k1 k2 k3 k4 k5 k6 =>
      rw [List.append_assoc, List.append_assoc] at hs
      have hh : ∀ {w rest : List Nat}, w ≠ [] → (∀ c, w.head? = some c → ¬ skip c) → ∀ x, (w ++ rest).head? = some x → ¬ skip x := by
        intro w rest hw h x hx
        cases w with
        | nil => exact absurd rfl hw
        | cons c w => exact h x (by simpa using hx)
      obtain ⟨-, e⟩ := split h1 k1 (hh h2 h3) (hh k2 k3) hs
      obtain ⟨e1, e2⟩ := split h4 k4 h5 k5 e
      subst e1 e2
      rw [ih k6]

theorem Cut.append {skip take : Nat → Prop} (h10 : skip 10) (k10 : ¬ take 10) {s t : List Nat} {ws vs : List (List Nat)} (h : Cut skip take s ws)
    (hs : s.getLast? = some 10) (k : Cut skip take t vs) : Cut skip take (s ++ t) (ws ++ vs) := by
  induction h with
  | @gap g hg =>
    cases k with
    | gap hg' => exact .gap (fun c hc => (List.mem_append.1 hc).elim (hg c) (hg' c))
    | @word g' w rest ws h1 h2 h3 h4 h5 h6 =>
      have := Cut.word (g := g ++ g') (fun c hc => (List.mem_append.1 hc).elim (hg c) (h1 c)) h2 h3 h4 h5 h6
      simpa [List.append_assoc] using this
  | @word g w rest ws h1 h2 h3 h4 h5 h6 ih =>
    cases rest with
    | nil =>
      rw [List.append_nil, List.getLast?_append] at hs
      have : w.getLast? = some 10 := by
        cases hw : w.getLast? with
        | none => exact absurd (List.getLast?_eq_none_iff.1 hw) h2
        | some c => rw [hw] at hs; exact hs
      exact absurd (h4 10 (List.mem_of_getLast? this)) k10
    | cons c rest =>
      have := Cut.word (g := g) (rest := c :: rest ++ t) h1 h2 h3 h4 (by simpa using h5) (ih (by simpa [List.getLast?_append] using hs))
      simpa [List.append_assoc] using this

/-- No stretch of the text without a newline is longer than fgets takes at once. -/
def ShortLines (text : List Byte) : Prop := ∀ x y z, text = x ++ y ++ z → 10 ∉ y → y.length < 0x3fff

theorem pspLines_cut (T : PspTool) (hT : ∀ c, T.skip c = Bool.false → T.take c = Bool.true) (h10 : T.skip 10 = Bool.true) (k10 : T.take 10 = Bool.false)
    (s cur : List Byte) (hz : 0 ∉ cur ++ s) (hn : 10 ∉ cur) (hs : ShortLines (cur ++ s)) :
    ∃ ws, Cut (T.skip · = Bool.true) (T.take · = Bool.true) (cur ++ s) ws ∧
      (pspLines s (0x3fff - cur.length) cur).flatMap (fun l => pspWords T (l.takeWhile (· ≠ 0))) = ws.filter fun w => 3 < w.length := by
  have hno : ∀ l : List Byte, 0 ∉ l → l.takeWhile (· ≠ 0) = l := fun l hl => by
    induction l with
    | nil => rfl
    | cons c l ih =>
      simp only [List.mem_cons, not_or] at hl
      rw [List.takeWhile_cons_of_pos (by simpa using Ne.symm hl.1), ih hl.2]
  induction s generalizing cur with
  | nil =>
    rw [pspLines, List.append_nil]
    rw [List.append_nil] at hz
    split
    · rename_i h; subst h
      exact ⟨[], .gap (by simp), rfl⟩
    · obtain ⟨ws, h1, h2⟩ := pspWordsN_cut T hT (cur.length + 1) cur (by omega)
      refine ⟨ws, h1, ?_⟩
      rw [List.flatMap_cons, List.flatMap_nil, List.append_nil, hno _ hz, pspWords, h2]
  | cons c s ih =>
    rw [pspLines]
    by_cases hc : c = 10
    · subst hc
      rw [if_pos (.inl rfl)]
      have hz1 : 0 ∉ cur ++ [10] := fun h => hz (by simp at h ⊢; tauto)
      obtain ⟨ws, h1, h2⟩ := pspWordsN_cut T hT ((cur ++ [10]).length + 1) (cur ++ [10]) (by omega)
      obtain ⟨vs, k1, k2⟩ := ih [] (fun h => hz (by simp at h ⊢; tauto)) (by simp) (fun x y z e => hs (cur ++ [10] ++ x) y z (by
        simp only [List.nil_append] at e
        rw [e]; simp [List.append_assoc]))
      refine ⟨ws ++ vs, ?_, ?_⟩
      · have := Cut.append (skip := (T.skip · = Bool.true)) (take := (T.take · = Bool.true)) h10 (by simp [k10]) h1 (by simp) k1
        simpa [List.append_assoc] using this
      · simp only [List.length_nil, Nat.sub_zero] at k2
        rw [List.flatMap_cons, hno _ hz1, pspWords, h2, k2, List.filter_append]
    · have hn' : 10 ∉ cur ++ [c] := by simp [hn, Ne.symm hc]
      have := hs [] (cur ++ [c]) s (by simp) hn'
      rw [List.length_append, List.length_singleton] at this
      rw [if_neg (by omega)]
      have := ih (cur ++ [c]) (by simpa using hz) hn' (by simpa using hs)
      rw [List.length_append, List.length_singleton] at this
      simpa [Nat.sub_sub] using this

theorem pspFile_cut (T : PspTool) (hT : ∀ c, T.skip c = Bool.false → T.take c = Bool.true) (h10 : T.skip 10 = Bool.true) (k10 : T.take 10 = Bool.false)
    (text : List Byte) (hz : 0 ∉ text) (hs : ShortLines text) :
    ∃ ws, Cut (T.skip · = Bool.true) (T.take · = Bool.true) text ws ∧ pspFile T text = ws.filter fun w => 3 < w.length := by
  exact pspLines_cut T hT h10 k10 text [] hz (by simp) hs

/-- Every word of the file is taken letter by letter, whatever the file contains. -/
theorem pspFile_words (T : PspTool) (hT : ∀ c, T.skip c = Bool.false → T.take c = Bool.true) (text : List Byte) :
    ∀ w ∈ pspFile T text, 3 < w.length ∧ ∀ c ∈ w, T.take c = Bool.true := by
  intro w hw
  obtain ⟨l, -, h⟩ := List.mem_flatMap.1 hw
  obtain ⟨ws, h1, h2⟩ := pspWordsN_cut T hT ((l.takeWhile (· ≠ 0)).length + 1) (l.takeWhile (· ≠ 0)) (by omega)
  rw [pspWords, h2, List.mem_filter] at h
  refine ⟨by simpa using h.2, ?_⟩
  have key : ∀ {s : List Nat} {ws : List (List Nat)}, Cut (T.skip · = Bool.true) (T.take · = Bool.true) s ws → ∀ w ∈ ws, ∀ c ∈ w, T.take c = Bool.true := by
    intro s ws h
    induction h with
    | gap _ => simp
    | word _ _ _ h4 _ _ ih =>
      intro w hw
      rcases List.mem_cons.1 hw with rfl | hw
      · exact h4
      · exact ih w hw
  exact key h1 w h.1

end Libmorph
