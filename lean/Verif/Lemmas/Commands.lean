import Verif.Spec.Commands
import Verif.Lemmas.TabLine
import Mathlib.Tactic.ByContra
/-
The compilers as programs: lemmas.
-/
namespace Libmorph
open Spec

theorem isSwitch_iff (a : List Byte) : isSwitch a = true ↔ a.head? = some 45 := by simp [isSwitch]

/-! ### tfc and makeich -/

theorem nameArgs_append {σ : Type} (f : List Byte → σ → Option σ) (pre : List (List Byte)) : ∀ (rest : List (List Byte)) (o : σ) (names : List (List Byte)),
    names.length + (namesOf pre).length ≤ 3 →
    nameArgs f (pre ++ rest) o names = (nameArgs f pre o names).bind fun r => nameArgs f rest r.1 r.2 := by
  induction pre with
  | nil => intro rest o names _; rfl
  | cons a pre ih =>
    intro rest o names h
    rw [List.cons_append, nameArgs, nameArgs]
    by_cases ha : a.head? = some 45
    · rw [if_pos ha, if_pos ha]
      have hn : namesOf (a :: pre) = namesOf pre := by
        rw [namesOf, List.filter_cons_of_neg (by simp [isSwitch, ha])]; rfl
      rw [hn] at h
      rw [Option.bind_assoc]
      cases f a o with
      | none => rfl
      | some o' => exact ih rest o' names h
    · rw [if_neg ha, if_neg ha]
      have hn : namesOf (a :: pre) = a :: namesOf pre := by
        rw [namesOf, List.filter_cons_of_pos (by simp [isSwitch, ha])]; rfl
      rw [hn, List.length_cons] at h
      rw [if_pos (by omega), if_pos (by omega)]
      exact ih rest o _ (by rw [List.length_append, List.length_singleton]; omega)

/-- All switches are taken in turn, the names are collected. -/
theorem nameArgs_all {σ : Type} (f : List Byte → σ → Option σ) (args : List (List Byte)) : ∀ (o : σ) (names : List (List Byte)),
    names.length + (namesOf args).length ≤ 3 →
    nameArgs f args o names = ((args.filter isSwitch).foldlM (fun o a => f a o) o).map fun o => (o, names ++ namesOf args) := by
  induction args with
  | nil => intro o names _; simp [nameArgs, namesOf]
  | cons a args ih =>
    intro o names h
    rw [nameArgs]
    by_cases ha : a.head? = some 45
    · have hn : namesOf (a :: args) = namesOf args := by
        rw [namesOf, List.filter_cons_of_neg (by simp [isSwitch, ha])]; rfl
      rw [hn] at h
      rw [if_pos ha, List.filter_cons_of_pos (by simp [isSwitch, ha]), List.foldlM_cons, hn]
      show (f a o).bind _ = ((f a o).bind _).map _
      cases f a o with
      | none => rfl
      | some o' => exact ih o' names h
    · have hn : namesOf (a :: args) = a :: namesOf args := by
        rw [namesOf, List.filter_cons_of_pos (by simp [isSwitch, ha])]; rfl
      rw [hn, List.length_cons] at h
      rw [if_neg ha, if_pos (by omega), List.filter_cons_of_neg (by simp [isSwitch, ha]), hn,
        ih o _ (by rw [List.length_append, List.length_singleton]; omega)]
      simp

/-- What follows a fourth name is not looked at. -/
theorem nameArgs_fourth {σ : Type} (f : List Byte → σ → Option σ) (pre : List (List Byte)) (x : List Byte) (rest : List (List Byte)) (o : σ)
    (h : (namesOf pre).length = 3) (hx : x.head? ≠ some 45) : nameArgs f (pre ++ x :: rest) o [] = nameArgs f pre o [] := by
  rw [nameArgs_append f pre (x :: rest) o [] (by simp [h]), nameArgs_all f pre o [] (by simp [h])]
  cases (pre.filter isSwitch).foldlM (fun o a => f a o) o with
  | none => rfl
  | some o' =>
    simp only [Option.map_some, Option.bind_some, List.nil_append]
    rw [nameArgs, if_neg hx, if_neg (by rw [h]; decide)]

/-- No result has more than three names. -/
theorem nameArgs_few {σ : Type} (f : List Byte → σ → Option σ) (args : List (List Byte)) : ∀ (o : σ) (names : List (List Byte)) (r : σ × List (List Byte)),
    names.length ≤ 3 → nameArgs f args o names = some r → r.2.length ≤ 3 := by
  induction args with
  | nil => intro o names r h e; cases e; exact h
  | cons a args ih =>
    intro o names r h e
    rw [nameArgs] at e
    split at e
    · cases hf : f a o with
      | none => rw [hf] at e; exact (Option.some_ne_none _ e.symm).elim
      | some o' => rw [hf] at e; exact ih o' names r h e
    · split at e
      · exact ih o _ r (by rw [List.length_append, List.length_singleton]; omega) e
      · cases e; exact h

/-! ### Ukrainian -/

theorem mapInfoIn_rus (s : List Byte) (g : GramInfo) : mapInfoIn gramMapper s g = mapInfo s g := rfl

theorem tfcLinesIn_rus (l : List (List Byte)) : ∀ g : GramInfo, tfcLinesIn gramMapper g l = tfcLines g l := by
  induction l with
  | nil => intro g; rfl
  | cons t ts ih =>
    intro g
    rw [tfcLinesIn, tfcLines]
    simp only [ih, mapInfoIn_rus]
    rfl

theorem tfcMainIn_rus (conv : List Byte → List Byte) (fs : List Byte → Option (List Byte)) (depth : Nat) (path : List Byte) :
    tfcMainIn gramMapper conv fs depth path = tfcMain conv fs depth path := by
  have h : tfcTableIn gramMapper = tfcTable := by
    funext p
    rw [tfcTableIn, tfcTable, tfcLinesIn_rus]
  rw [tfcMainIn, tfcMain, h]

theorem ukr_token (u r : String) (h : (u, r) ∈ ukrWords) : mapFind ukrMapper (ru u) = mapFind gramMapper (ru r) ∧ (mapFind gramMapper (ru r)).isSome ∧
    124 ∉ ru u ∧ ru u ≠ [] ∧ 124 ∉ ru r ∧ ru r ≠ [] := by
  have key : ∀ p ∈ ukrWords.map (fun p => (ru p.1, ru p.2)), mapFind ukrMapper p.1 = mapFind gramMapper p.2 ∧ (mapFind gramMapper p.2).isSome ∧
    124 ∉ p.1 ∧ p.1 ≠ [] ∧ 124 ∉ p.2 ∧ p.2 ≠ [] := by decide +kernel
  exact key _ (List.mem_map.2 ⟨(u, r), h, rfl⟩)

theorem ukr_known (t : List Byte) (h : (mapFind ukrMapper t).isSome) : ∃ p ∈ ukrWords, t = ru p.1 := by
  have key : ∀ p ∈ ukrMapper, p.1 ∈ ukrWords.map fun p => ru p.1 := by decide +kernel
  obtain ⟨d, hd⟩ := Option.isSome_iff_exists.1 h
  rw [mapFind, Option.map_eq_some_iff] at hd
  obtain ⟨q, hq, _⟩ := hd
  have h1 := List.find?_some hq
  have h2 := key q (List.mem_of_find?_eq_some hq)
  simp only [decide_eq_true_eq] at h1
  rw [h1, List.mem_map] at h2
  obtain ⟨p, hp, e⟩ := h2
  exact ⟨p, hp, e.symm⟩

theorem splitOn_join : ∀ ws : List (List Byte), ws ≠ [] → (∀ w ∈ ws, 124 ∉ w) → splitOn 124 ([124].intercalate ws) = ws
  | [], h, _ => (h rfl).elim
  | [w], _, h => by simpa using splitOn_none 124 w (h w (by simp))
  | w :: v :: ws, _, h => by
    have e : ([124] : List Byte).intercalate (w :: v :: ws) = w ++ 124 :: [124].intercalate (v :: ws) := by
      simp [List.intercalate, List.intersperse, List.flatten]
    rw [e, splitOn_some 124 _ w (h w (by simp)), splitOn_join (v :: ws) (by simp) (fun x hx => h x (by simp [hx]))]

theorem join_last (ws : List (List Byte)) (h : ∀ w ∈ ws, w ≠ []) : ws.getLast? ≠ some [] := by
  intro e
  exact h [] (List.mem_of_getLast? e) rfl

/-! ### Files -/

/-- A source that can be read is read in the same way when there are more files. -/
theorem tabFile_more (cmds : List (List Byte)) (conv : List Byte → List Byte) {fs fs' : List Byte → Option (List Byte)}
    (h : ∀ p b, fs p = some b → fs' p = some b) : ∀ (depth : Nat) (path : List Byte) (r : List (List Byte × List (List Byte))),
    tabFile cmds conv fs depth path = some r → tabFile cmds conv fs' depth path = some r := by
  intro depth
  induction depth with
  | zero => intro path r e; exact (Option.some_ne_none _ e.symm).elim
  | succ depth ih =>
    intro path r e
    rw [tabFile] at e ⊢
    cases hf : fs path with
    | none => rw [hf] at e; exact (Option.some_ne_none _ e.symm).elim
    | some file =>
      rw [hf] at e
      rw [h _ _ hf]
      simp only at e ⊢
      have step : ∀ s t s', tabStep cmds (fun name => tabFile cmds conv fs depth (folderOf path ++ name)) s t = some s' →
          tabStep cmds (fun name => tabFile cmds conv fs' depth (folderOf path ++ name)) s t = some s' := by
        intro s t s' hs
        unfold tabStep at hs ⊢
        cases hm : s.2 with
        | header x => rw [hm] at hs; exact hs
        | body x y => rw [hm] at hs; exact hs
        | top =>
          rw [hm] at hs
          simp only at hs ⊢
          cases ha : anyCommand includeCmds t with
          | none => rw [ha] at hs; exact hs
          | some q =>
            rw [ha] at hs
            simp only at hs ⊢
            split
            · rename_i h0; rw [if_pos h0] at hs; exact hs
            · rename_i h0
              rw [if_neg h0, Option.map_eq_some_iff] at hs
              obtain ⟨l, h1, h2⟩ := hs
              rw [ih _ _ h1]; exact congrArg some h2
      have fold : ∀ (ts : List (List Byte)) s s', ts.foldlM (tabStep cmds (fun name => tabFile cmds conv fs depth (folderOf path ++ name))) s = some s' →
          ts.foldlM (tabStep cmds (fun name => tabFile cmds conv fs' depth (folderOf path ++ name))) s = some s' := by
        intro ts
        induction ts with
        | nil => intro s s' hs; exact hs
        | cons t ts iht =>
          intro s s' hs
          rw [List.foldlM_cons] at hs ⊢
          obtain ⟨m, h1, h2⟩ := Option.bind_eq_some_iff.1 hs
          exact Option.bind_eq_some_iff.2 ⟨m, step _ _ _ h1, iht _ _ h2⟩
      cases hx : (srcTexts conv file).foldlM (tabStep cmds (fun name => tabFile cmds conv fs depth (folderOf path ++ name))) ([], .top) with
      | none => rw [hx] at e; exact (Option.some_ne_none _ e.symm).elim
      | some q => rw [hx] at e; rw [fold _ _ _ hx]; exact e

theorem mapM_first {α β γ : Type} (f : β → Option γ) (g : α × β → Option (α × γ)) (hg : ∀ p, g p = (f p.2).map (p.1, ·)) :
    ∀ (l : List (α × β)) (r : List (α × γ)), l.mapM g = some r → ∀ q ∈ r, ∃ p ∈ l, p.1 = q.1 ∧ f p.2 = some q.2
  | [], r, h, q, hq => by cases h; cases hq
  | p :: l, r, h, q, hq => by
    rw [List.mapM_cons] at h
    obtain ⟨x, h1, h2⟩ := Option.bind_eq_some_iff.1 h
    obtain ⟨r', h3, h4⟩ := Option.bind_eq_some_iff.1 h2
    cases h4
    rw [hg] at h1
    obtain ⟨y, h5, h6⟩ := Option.map_eq_some_iff.1 h1
    rcases List.mem_cons.1 hq with rfl | hq
    · exact ⟨p, List.mem_cons_self, by rw [← h6], by rw [← h6]; exact h5⟩
    · obtain ⟨p', a, b, c⟩ := mapM_first f g hg l r' h3 q hq
      exact ⟨p', List.mem_cons_of_mem _ a, b, c⟩

/-- What the older model of makeich and of the loading of its index gives is what is written and can be loaded. -/
theorem ichWritten_of {conv : List Byte → List Byte} {fs : List Byte → Option (List Byte)} {depth : Nat} {path image : List Byte}
    {index : List (List Byte × List (List Byte × Nat))} (h : ichMain conv fs depth path = some (image, index)) :
    ichWritten conv fs depth path = some (image, index) ∧ ∀ p ∈ index, ∀ c ∈ p.2, c.1.length < 16 := by
  rw [ichMain, Option.bind_assoc] at h
  obtain ⟨l, h1, h⟩ := Option.bind_eq_some_iff.1 h
  obtain ⟨l', h2, h⟩ := Option.bind_eq_some_iff.1 h
  rw [ichCompile] at h
  obtain ⟨s, h3, h⟩ := Option.bind_eq_some_iff.1 h
  rw [IchSet.store] at h
  split at h
  · cases h
  · rename_i hc
    constructor
    · rw [ichWritten]
      exact Option.bind_eq_some_iff.2 ⟨l, h1, Option.bind_eq_some_iff.2 ⟨l', h2, Option.bind_eq_some_iff.2 ⟨s, h3, h⟩⟩⟩
    · obtain ⟨tabs, h4, h⟩ := Option.bind_eq_some_iff.1 h
      obtain ⟨idx, h5, h⟩ := Option.bind_eq_some_iff.1 h
      cases h
      intro p hp c hcp
      obtain ⟨q, _, _, h6⟩ := mapM_first (fun i : Nat => tabs[i]?) _ (fun _ => rfl) _ _ h5 p hp
      have h7 : p.2 ∈ tabs := List.mem_of_getElem? h6
      obtain ⟨i, hi, hi2⟩ := List.mem_iff_getElem.1 h7
      have key : ∀ (L : List (List (List Byte × Nat))) (R : List (List (List Byte × Nat))),
          L.mapM (fun c => c.mapM fun (p : List Byte × Nat) => ((ichOffsets 6 s.inter)[p.2]?).map (p.1, ·)) = some R →
          ∀ r ∈ R, ∃ c ∈ L, c.mapM (fun (p : List Byte × Nat) => ((ichOffsets 6 s.inter)[p.2]?).map (p.1, ·)) = some r := by
        intro L
        induction L with
        | nil => intro R e r hr; cases e; cases hr
        | cons c L ih =>
          intro R e r hr
          rw [List.mapM_cons] at e
          obtain ⟨x, e1, e⟩ := Option.bind_eq_some_iff.1 e
          obtain ⟨R', e2, e⟩ := Option.bind_eq_some_iff.1 e
          cases e
          rcases List.mem_cons.1 hr with rfl | hr
          · exact ⟨c, List.mem_cons_self, e1⟩
          · obtain ⟨c', a, b⟩ := ih R' e2 r hr
            exact ⟨c', List.mem_cons_of_mem _ a, b⟩
      obtain ⟨cs, hcs, h8⟩ := key _ _ h4 _ h7
      obtain ⟨x, hx, e, _⟩ := mapM_first (fun i : Nat => (ichOffsets 6 s.inter)[i]?) _ (fun _ => rfl) _ _ h8 c hcp
      by_contra hlen
      apply hc
      rw [List.any_eq_true]
      exact ⟨cs, hcs, List.any_eq_true.2 ⟨x, hx, by rw [e]; simp; omega⟩⟩

theorem ichWritten_more (conv : List Byte → List Byte) {fs fs' : List Byte → Option (List Byte)} (h : ∀ p b, fs p = some b → fs' p = some b) {depth : Nat}
    {path : List Byte} {r : List Byte × List (List Byte × List (List Byte × Nat))} (e : ichWritten conv fs depth path = some r) :
    ichWritten conv fs' depth path = some r := by
  rw [ichWritten] at e ⊢
  obtain ⟨l, h1, e⟩ := Option.bind_eq_some_iff.1 e
  exact Option.bind_eq_some_iff.2 ⟨l, tabFile_more _ _ h _ _ _ h1, e⟩

theorem tfcMainIn_more (words : List (List Byte × GramData)) (conv : List Byte → List Byte) {fs fs' : List Byte → Option (List Byte)}
    (h : ∀ p b, fs p = some b → fs' p = some b) {depth : Nat} {path : List Byte} {r : List Byte × List (List Byte × Nat)}
    (e : tfcMainIn words conv fs depth path = some r) : tfcMainIn words conv fs' depth path = some r := by
  rw [tfcMainIn, Option.bind_assoc] at e ⊢
  obtain ⟨l, h1, e⟩ := Option.bind_eq_some_iff.1 e
  exact Option.bind_eq_some_iff.2 ⟨l, tabFile_more _ _ h _ _ _ h1, e⟩

theorem put_same (d : Disk) (p t : List Byte) : (d.put p t).file p = some t := by simp [Disk.put]
theorem put_other (d : Disk) (p t q : List Byte) (h : q ≠ p) : (d.put p t).file q = d.file q := by simp [Disk.put, h]
theorem put_creatable (d : Disk) (p t : List Byte) : (d.put p t).creatable = d.creatable := rfl

/-- What is written: all files if all can be created, otherwise those before the first that cannot. -/
theorem writeFiles_eq : ∀ (l : List (List Byte × List Byte)) (d : Disk), writeFiles l d =
    (l.all fun p => d.creatable p.1, (l.takeWhile fun p => d.creatable p.1).foldl (fun d p => d.put p.1 p.2) d)
  | [], d => rfl
  | (p, t) :: l, d => by
    rw [writeFiles]
    by_cases h : d.creatable p = true
    · rw [if_pos h, writeFiles_eq l, put_creatable]
      simp [h]
    · simp [h]

theorem puts_other (l : List (List Byte × List Byte)) : ∀ (d : Disk) (q : List Byte), (∀ p ∈ l, p.1 ≠ q) →
    (l.foldl (fun d p => d.put p.1 p.2) d).file q = d.file q := by
  induction l with
  | nil => intro d q _; rfl
  | cons p l ih =>
    intro d q h
    rw [List.foldl_cons, ih _ _ fun p hp => h p (List.mem_cons_of_mem _ hp), put_other _ _ _ _ (Ne.symm (h p List.mem_cons_self))]

theorem puts_same (l : List (List Byte × List Byte)) (hn : (l.map (·.1)).Pairwise (· ≠ ·)) : ∀ (d : Disk) (p : List Byte × List Byte), p ∈ l →
    (l.foldl (fun d p => d.put p.1 p.2) d).file p.1 = some p.2 := by
  induction l with
  | nil => intro d p hp; cases hp
  | cons q l ih =>
    intro d p hp
    rw [List.map_cons, List.pairwise_cons] at hn
    rw [List.foldl_cons]
    rcases List.mem_cons.1 hp with rfl | hp
    · rw [puts_other l _ _ fun r hr => Ne.symm (hn.1 r.1 (List.mem_map.2 ⟨r, hr, rfl⟩)), put_same]
    · exact ih hn.2 _ p hp

/-! ### makerus and makeeng -/

/-- No key goes on after a separator. -/
def PlainKeys (keys : List (List Byte)) : Prop := ∀ k ∈ keys, 61 ∉ k ∧ 58 ∉ k

theorem rusKeys_plain : PlainKeys rusKeys := by unfold PlainKeys; decide
theorem engKeys_plain : PlainKeys engKeys := by unfold PlainKeys; decide

theorem keyTest_iff (k arg : List Byte) : (k.isPrefixOf arg && (arg[k.length]? = some 61 || arg[k.length]? = some 58)) = true ↔
    ∃ v, arg = k ++ 61 :: v ∨ arg = k ++ 58 :: v := by
  rw [Bool.and_eq_true, List.isPrefixOf_iff_prefix, Bool.or_eq_true, decide_eq_true_eq, decide_eq_true_eq]
  constructor
  · rintro ⟨⟨t, rfl⟩, h⟩
    rw [List.getElem?_append_right (Nat.le_refl _), Nat.sub_self] at h
    cases t with
    | nil => simp at h
    | cons c v =>
      simp only [List.getElem?_cons_zero, Option.some.injEq] at h
      rcases h with rfl | rfl
      · exact ⟨v, Or.inl rfl⟩
      · exact ⟨v, Or.inr rfl⟩
  · rintro ⟨v, rfl | rfl⟩
    · exact ⟨List.prefix_append _ _, Or.inl (by rw [List.getElem?_append_right (Nat.le_refl _), Nat.sub_self]; rfl)⟩
    · exact ⟨List.prefix_append _ _, Or.inr (by rw [List.getElem?_append_right (Nat.le_refl _), Nat.sub_self]; rfl)⟩

theorem cut_eq {k k' v v' : List Byte} {s s' : Byte} (h1 : 61 ∉ k ∧ 58 ∉ k) (h2 : 61 ∉ k' ∧ 58 ∉ k') (hs : s = 61 ∨ s = 58) (hs' : s' = 61 ∨ s' = 58)
    (e : k ++ s :: v = k' ++ s' :: v') : k = k' ∧ s = s' ∧ v = v' := by
  induction k generalizing k' with
  | nil =>
    cases k' with
    | nil => simpa using e
    | cons c k' =>
      simp only [List.nil_append, List.cons_append, List.cons.injEq] at e
      rw [← e.1] at h2
      rcases hs with rfl | rfl <;> simp at h2
  | cons c k ih =>
    cases k' with
    | nil =>
      simp only [List.nil_append, List.cons_append, List.cons.injEq] at e
      rw [e.1] at h1
      rcases hs' with rfl | rfl <;> simp at h1
    | cons c' k' =>
      simp only [List.cons_append, List.cons.injEq] at e
      simp only [List.mem_cons, not_or] at h1 h2
      obtain ⟨a, b, c⟩ := ih ⟨h1.1.2, h1.2.2⟩ ⟨h2.1.2, h2.2.2⟩ e.2
      exact ⟨by rw [e.1, a], b, c⟩

theorem Spec.IsKey.tail {k v a : List Byte} (h : IsKey k v a) : a.head? = some 45 ∧ ∃ s, (s = 61 ∨ s = 58) ∧ a.drop 1 = k ++ s :: v := by
  rcases h with rfl | rfl
  · exact ⟨rfl, 61, Or.inl rfl, rfl⟩
  · exact ⟨rfl, 58, Or.inr rfl, rfl⟩

theorem Spec.IsKey.unique {keys : List (List Byte)} (hp : PlainKeys keys) {k k' v v' a : List Byte} (hk : k ∈ keys) (hk' : k' ∈ keys) (h : IsKey k v a) (h' : IsKey k' v' a) :
    k = k' ∧ v = v' := by
  obtain ⟨_, s, hs, e⟩ := h.tail
  obtain ⟨_, s', hs', e'⟩ := h'.tail
  rw [e] at e'
  obtain ⟨a, _, b⟩ := cut_eq (hp k hk) (hp k' hk') hs hs' e'
  exact ⟨a, b⟩

theorem keySwitch_of {keys : List (List Byte)} (hp : PlainKeys keys) {k v a : List Byte} (hk : k ∈ keys) (h : IsKey k v a) (o : List Byte → List Byte) :
    keySwitch keys (a.drop 1) o = if o k ≠ [] then none else some fun q => if q = k then v else o q := by
  obtain ⟨_, s, hs, e⟩ := h.tail
  have hf : (keys.find? fun k => k.isPrefixOf (a.drop 1) && ((a.drop 1)[k.length]? = some 61 || (a.drop 1)[k.length]? = some 58)) = some k := by
    cases hx : keys.find? fun k => k.isPrefixOf (a.drop 1) && ((a.drop 1)[k.length]? = some 61 || (a.drop 1)[k.length]? = some 58) with
    | none =>
      rw [List.find?_eq_none] at hx
      exact ((hx k hk) ((keyTest_iff k _).2 ⟨v, by rw [e]; rcases hs with rfl | rfl <;> simp⟩)).elim
    | some k' =>
      have hy := List.find?_some hx
      obtain ⟨v', h'⟩ := (keyTest_iff k' _).1 hy
      have : ∃ s', (s' = 61 ∨ s' = 58) ∧ a.drop 1 = k' ++ s' :: v' := by
        rcases h' with h' | h'
        · exact ⟨61, Or.inl rfl, h'⟩
        · exact ⟨58, Or.inr rfl, h'⟩
      obtain ⟨s', hs', e'⟩ := this
      rw [e] at e'
      rw [(cut_eq (hp k hk) (hp k' (List.mem_of_find?_eq_some hx)) hs hs' e').1]
  have hd : (a.drop 1).drop (k.length + 1) = v := by
    rw [e, List.drop_append, List.drop_eq_nil_of_le (by omega)]
    simp
  rw [keySwitch, hf]
  simp only [hd]

theorem keySwitch_none {keys : List (List Byte)} {a : List Byte} (ha : a.head? = some 45) (h : ∀ k ∈ keys, ∀ v, ¬ IsKey k v a) (o : List Byte → List Byte) :
    keySwitch keys (a.drop 1) o = none := by
  have hf : (keys.find? fun k => k.isPrefixOf (a.drop 1) && ((a.drop 1)[k.length]? = some 61 || (a.drop 1)[k.length]? = some 58)) = none := by
    rw [List.find?_eq_none]
    intro k hk hx
    obtain ⟨v, hv⟩ := (keyTest_iff k _).1 hx
    cases a with
    | nil => simp at ha
    | cons c a =>
      simp only [List.head?_cons, Option.some.injEq] at ha
      subst ha
      refine h k hk v ?_
      simp only [List.drop_succ_cons, List.drop_zero] at hv
      rcases hv with rfl | rfl
      · exact Or.inl rfl
      · exact Or.inr rfl
  rw [keySwitch, hf]

theorem keyArgs_append (keys : List (List Byte)) (pre : List (List Byte)) : ∀ (rest : List (List Byte)) (o : List Byte → List Byte) (dicts : List (List Byte)),
    keyArgs keys (pre ++ rest) o dicts = (keyArgs keys pre o dicts).bind fun r => keyArgs keys rest r.1 r.2 := by
  induction pre with
  | nil => intro rest o dicts; rfl
  | cons a pre ih =>
    intro rest o dicts
    rw [List.cons_append, keyArgs, keyArgs]
    split
    · rw [Option.bind_assoc]
      cases keySwitch keys (a.drop 1) o with
      | none => rfl
      | some o' => exact ih rest o' dicts
    · exact ih rest o _

/-- The names are collected in order. -/
theorem keyArgs_names (keys : List (List Byte)) (args : List (List Byte)) : ∀ (o : List Byte → List Byte) (dicts : List (List Byte)) r,
    keyArgs keys args o dicts = some r → r.2 = dicts ++ namesOf args := by
  induction args with
  | nil => intro o dicts r e; cases e; simp [namesOf]
  | cons a args ih =>
    intro o dicts r e
    rw [keyArgs] at e
    split at e
    · rename_i ha
      cases hf : keySwitch keys (a.drop 1) o with
      | none => rw [hf] at e; exact (Option.some_ne_none _ e.symm).elim
      | some o' =>
        rw [hf] at e
        rw [ih o' dicts r e, namesOf, namesOf, List.filter_cons_of_neg (by simp [isSwitch, ha])]
    · rename_i ha
      rw [ih o _ r e, namesOf, namesOf, List.filter_cons_of_pos (by simp [isSwitch, ha])]
      simp

/-- What the arguments come to. -/
theorem keyArgs_is {keys : List (List Byte)} (hp : PlainKeys keys) (args : List (List Byte)) :
    (keyArgs keys args (fun _ => []) [] = none ∧ BadSwitches keys args) ∨
    ∃ o, keyArgs keys args (fun _ => []) [] = some (o, namesOf args) ∧ ¬ BadSwitches keys args ∧ (∀ k ∈ keys, ValueOf args k (o k)) ∧
      ∀ k ∈ keys, ∀ b ∈ args, ∀ w, w ≠ [] → IsKey k w b → o k ≠ [] := by
  have step : ∀ (n : Nat) (args : List (List Byte)), args.length = n →
      ((keyArgs keys args (fun _ => []) [] = none ∧ BadSwitches keys args) ∨
      ∃ o, keyArgs keys args (fun _ => []) [] = some (o, namesOf args) ∧ ¬ BadSwitches keys args ∧ (∀ k ∈ keys, ValueOf args k (o k)) ∧
        ∀ k ∈ keys, ∀ b ∈ args, ∀ w, w ≠ [] → IsKey k w b → o k ≠ []) := by
    intro n
    induction n with
    | zero =>
      intro args hl
      have := List.length_eq_zero_iff.1 hl
      subst this
      refine Or.inr ⟨fun _ => [], rfl, ?_, fun k _ => Or.inr ⟨by simp, rfl⟩, by simp⟩
      rintro ⟨pre, a, post, e, _⟩
      simp at e
    | succ n ih =>
      intro args hl
      obtain ⟨init, a, rfl⟩ : ∃ init a, args = init ++ [a] := by
        refine ⟨args.dropLast, args.getLast (by intro e; simp [e] at hl), (List.dropLast_append_getLast _).symm⟩
      rw [List.length_append, List.length_singleton] at hl
      have bad_cases : BadSwitches keys (init ++ [a]) → BadSwitches keys init ∨ (isSwitch a = Bool.true ∧
          ((∀ k ∈ keys, ∀ v, ¬ IsKey k v a) ∨ ∃ k ∈ keys, ∃ v w, IsKey k v a ∧ w ≠ [] ∧ ∃ b ∈ init, IsKey k w b)) := by
        rintro ⟨pre, x, post, e, h⟩
        rcases List.eq_nil_or_concat post with rfl | ⟨post', y, rfl⟩
        · have := List.append_inj' e rfl
          obtain ⟨rfl, h2⟩ := this
          cases h2
          exact Or.inr h
        · rw [List.concat_eq_append, ← List.cons_append, ← List.append_assoc] at e
          obtain ⟨rfl, _⟩ := List.append_inj' e rfl
          exact Or.inl ⟨pre, x, post', rfl, h⟩
      have bad_init : BadSwitches keys init → BadSwitches keys (init ++ [a]) := by
        rintro ⟨pre, x, post, rfl, h⟩
        exact ⟨pre, x, post ++ [a], by simp, h⟩
      rw [keyArgs_append]
      rcases ih init (by omega) with ⟨h1, h2⟩ | ⟨o, h1, h2, h3, h4⟩
      · rw [h1]
        exact Or.inl ⟨rfl, bad_init h2⟩
      rw [h1, Option.bind_some]
      by_cases ha : a.head? = some 45
      · have hsw : isSwitch a = Bool.true := by simp [isSwitch, ha]
        simp only [keyArgs, if_pos ha]
        have hnames : namesOf (init ++ [a]) = namesOf init := by simp [namesOf, hsw]
        by_cases hk : ∃ k ∈ keys, ∃ v, IsKey k v a
        · obtain ⟨k, hk, v, hv⟩ := hk
          rw [keySwitch_of hp hk hv]
          by_cases ho : o k ≠ []
          · rw [if_pos ho]
            refine Or.inl ⟨rfl, init, a, [], rfl, hsw, Or.inr ⟨k, hk, v, o k, hv, ho, ?_⟩⟩
            rcases h3 k hk with ⟨pre, b, post, rfl, hb, _⟩ | ⟨_, hnil⟩
            · exact ⟨b, by simp, hb⟩
            · exact (ho hnil).elim
          · rw [if_neg ho, Option.bind_some]
            refine Or.inr ⟨_, by rw [hnames], ?_, ?_, ?_⟩
            · intro hb
              rcases bad_cases hb with hb | ⟨_, hb | ⟨k', hk', v', w, hv', hw, b, hb, hkb⟩⟩
              · exact h2 hb
              · exact hb k hk v hv
              · obtain ⟨rfl, rfl⟩ := Spec.IsKey.unique hp hk hk' hv hv'
                exact ho (h4 k hk b hb w hw hkb)
            · intro k' hk'
              by_cases e : k' = k
              · subst e
                simp only [if_true]
                exact Or.inl ⟨init, a, [], rfl, hv, by simp⟩
              · simp only [if_neg e]
                have hno : ∀ w, ¬ IsKey k' w a := fun w hw => e (Spec.IsKey.unique hp hk' hk hw hv).1
                rcases h3 k' hk' with ⟨pre, b, post, rfl, hb, hpost⟩ | ⟨hall, hnil⟩
                · refine Or.inl ⟨pre, b, post ++ [a], by simp, hb, fun c hc w => ?_⟩
                  rcases List.mem_append.1 hc with hc | hc
                  · exact hpost c hc w
                  · cases List.mem_singleton.1 hc; exact hno w
                · refine Or.inr ⟨fun c hc w => ?_, hnil⟩
                  rcases List.mem_append.1 hc with hc | hc
                  · exact hall c hc w
                  · cases List.mem_singleton.1 hc; exact hno w
            · intro k' hk' b hb w hw hkb
              rcases List.mem_append.1 hb with hb | hb
              · by_cases e : k' = k
                · subst e; exact absurd (h4 k' hk' b hb w hw hkb) ho
                · simp only [if_neg e]; exact h4 k' hk' b hb w hw hkb
              · cases List.mem_singleton.1 hb
                obtain ⟨rfl, rfl⟩ := Spec.IsKey.unique hp hk hk' hv hkb
                simpa using hw
        · have hno : ∀ k ∈ keys, ∀ v, ¬ IsKey k v a := fun k hk' v hv => hk ⟨k, hk', v, hv⟩
          rw [keySwitch_none ha hno]
          exact Or.inl ⟨rfl, init, a, [], rfl, hsw, Or.inl hno⟩
      · have hsw : isSwitch a = Bool.false := by simp [isSwitch, ha]
        have hno : ∀ (k w : List Byte), ¬ IsKey k w a := fun k w hw => ha hw.tail.1
        simp only [keyArgs, if_neg ha]
        refine Or.inr ⟨o, by simp [namesOf, hsw], ?_, ?_, ?_⟩
        · intro hb
          rcases bad_cases hb with hb | ⟨hb, _⟩
          · exact h2 hb
          · rw [hsw] at hb; cases hb
        · intro k' hk'
          rcases h3 k' hk' with ⟨pre, b, post, rfl, hb, hpost⟩ | ⟨hall, hnil⟩
          · refine Or.inl ⟨pre, b, post ++ [a], by simp, hb, fun c hc w => ?_⟩
            rcases List.mem_append.1 hc with hc | hc
            · exact hpost c hc w
            · cases List.mem_singleton.1 hc; exact hno k' w
          · refine Or.inr ⟨fun c hc w => ?_, hnil⟩
            rcases List.mem_append.1 hc with hc | hc
            · exact hall c hc w
            · cases List.mem_singleton.1 hc; exact hno k' w
        · intro k' hk' b hb w hw hkb
          rcases List.mem_append.1 hb with hb | hb
          · exact h4 k' hk' b hb w hw hkb
          · cases List.mem_singleton.1 hb; exact (hno k' w hkb).elim
  exact step _ args rfl

theorem Spec.ValueOf.unique {keys : List (List Byte)} (hp : PlainKeys keys) {args : List (List Byte)} {k v v' : List Byte} (hk : k ∈ keys) (h : ValueOf args k v) (h' : ValueOf args k v') : v = v' := by
  rcases h with ⟨pre, a, post, rfl, ha, hpost⟩ | ⟨hall, rfl⟩
  · rcases h' with ⟨pre', a', post', e, ha', hpost'⟩ | ⟨hall, rfl⟩
    · rcases List.append_eq_append_iff.1 e with ⟨l, rfl, e2⟩ | ⟨l, rfl, e2⟩
      · cases l with
        | nil =>
          simp only [List.nil_append, List.cons.injEq] at e2
          obtain ⟨rfl, _⟩ := e2
          exact (Spec.IsKey.unique hp hk hk ha ha').2
        | cons c l =>
          simp only [List.cons_append, List.cons.injEq] at e2
          exact (hpost a' (by rw [e2.2]; simp) v' ha').elim
      · cases l with
        | nil =>
          simp only [List.nil_append, List.cons.injEq] at e2
          obtain ⟨rfl, _⟩ := e2
          exact (Spec.IsKey.unique hp hk hk ha ha').2
        | cons c l =>
          simp only [List.cons_append, List.cons.injEq] at e2
          exact (hpost' a (by rw [e2.2]; simp) v ha).elim
    · exact (hall a (by simp) v ha).elim
  · rcases h' with ⟨pre', a', post', rfl, ha', hpost'⟩ | ⟨_, rfl⟩
    · exact (hall a' (by simp) v' ha').elim
    · rfl

theorem orDefault_of {v r : List Byte} {s : String} (h : OrElse v (litBytes s) r) : orDefault v s = r := by
  rcases h with ⟨rfl, rfl⟩ | ⟨h, rfl⟩
  · rfl
  · rw [orDefault, if_neg h]

theorem outPath_inj {dir a b : List Byte} (h : outPath dir a = outPath dir b) : a = b := by
  rw [outPath, outPath] at h
  exact List.append_cancel_left h

/-! ### The dictionaries -/

theorem rusRead_append (T : RusTabs) : ∀ (l l' : List (List Byte)) (r : RusState × List (List Byte)), rusRead T (l ++ l') r = (rusRead T l r).bind (rusRead T l')
  | [], l', r => rfl
  | x :: l, l', (st, unk) => by
    rw [List.cons_append, rusRead, rusRead]
    cases rusLine T x with
    | none => rfl
    | some q =>
      cases q with
      | skip => exact rusRead_append T l l' _
      | unknown t => exact rusRead_append T l l' _
      | articles as =>
        simp only
        rw [Option.bind_assoc]
        congr 1
        funext st
        exact rusRead_append T l l' _

/-- All dictionaries are there. -/
theorem rusDicts_all (T : RusTabs) (conv : List Byte → List Byte) (file : List Byte → Option (List Byte)) : ∀ (ps texts : List (List Byte)) (r : RusState × List (List Byte)),
    ps.map file = texts.map some → rusDicts T conv file ps r = (rusRead T (texts.map (sourceLines conv)).flatten r).map fun r => (Bool.true, r)
  | [], texts, r, h => by
    have : texts = [] := by simpa using h.symm
    subst this; rfl
  | p :: ps, texts, r, h => by
    cases texts with
    | nil => simp at h
    | cons t texts =>
      simp only [List.map_cons, List.cons.injEq] at h
      rw [rusDicts, h.1]
      simp only [List.map_cons, List.flatten_cons]
      rw [rusRead_append, Option.map_bind]
      congr 1
      funext r
      exact rusDicts_all T conv file ps texts r h.2

/-- A dictionary is not there. -/
theorem rusDicts_missing (T : RusTabs) (conv : List Byte → List Byte) (file : List Byte → Option (List Byte)) : ∀ (ps texts : List (List Byte)) (p : List Byte) (rest : List (List Byte))
    (r : RusState × List (List Byte)), ps.map file = texts.map some → file p = none →
    rusDicts T conv file (ps ++ p :: rest) r = (rusRead T (texts.map (sourceLines conv)).flatten r).map fun r => (Bool.false, r)
  | [], texts, p, rest, r, h, hp => by
    have : texts = [] := by simpa using h.symm
    subst this
    rw [List.nil_append, rusDicts, hp]; rfl
  | q :: ps, texts, p, rest, r, h, hp => by
    cases texts with
    | nil => simp at h
    | cons t texts =>
      simp only [List.map_cons, List.cons.injEq] at h
      rw [List.cons_append, rusDicts, h.1]
      simp only [List.map_cons, List.flatten_cons]
      rw [rusRead_append, Option.map_bind]
      congr 1
      funext r
      exact rusDicts_missing T conv file ps texts p rest r h.2 hp

theorem inDir_iff (dir name path : List Byte) : InDir dir name path ↔ path = outPath dir name := by
  rw [InDir, outPath]
  by_cases h : dir ≠ [] ∧ dir.getLast? ≠ some 47 ∧ dir.getLast? ≠ some 92
  · rw [if_pos h]
    constructor
    · rintro (⟨h1, _⟩ | ⟨_, _, _, rfl⟩)
      · obtain ⟨a, b, c⟩ := h
        rcases h1 with h1 | h1 | h1
        · exact (a h1).elim
        · exact (b h1).elim
        · exact (c h1).elim
      · simp
    · rintro rfl
      exact Or.inr ⟨h.1, h.2.1, h.2.2, by simp⟩
  · rw [if_neg h]
    constructor
    · rintro (⟨_, rfl⟩ | ⟨a, b, c, _⟩)
      · simp
      · exact (h ⟨a, b, c⟩).elim
    · rintro rfl
      refine Or.inl ⟨?_, by simp⟩
      by_cases a : dir = []
      · exact Or.inl a
      · by_cases b : dir.getLast? = some 47
        · exact Or.inr (Or.inl b)
        · refine Or.inr (Or.inr ?_)
          by_cases c : dir.getLast? = some 92
          · exact c
          · exact (h ⟨a, b, c⟩).elim

theorem puts_is (l : List (List Byte × List Byte)) (hn : (l.map (·.1)).Pairwise (· ≠ ·)) (d : Disk) (q : List Byte) :
    (∃ p ∈ l, p.1 = q ∧ (l.foldl (fun d p => d.put p.1 p.2) d).file q = some p.2) ∨
    ((∀ p ∈ l, p.1 ≠ q) ∧ (l.foldl (fun d p => d.put p.1 p.2) d).file q = d.file q) := by
  by_cases h : ∃ p ∈ l, p.1 = q
  · obtain ⟨p, hp, rfl⟩ := h
    exact Or.inl ⟨p, hp, rfl, puts_same l hn d p hp⟩
  · have h' : ∀ p ∈ l, p.1 ≠ q := fun p hp e => h ⟨p, hp, e⟩
    exact Or.inr ⟨h', puts_other l d q h'⟩

/-- The files of a library, in some order, written after the file of unknown lines. -/
theorem written_of {d d1 d2 : Disk} {dir unknown : List Byte} {unk : List (List Byte)} {names : List (List Byte)} {texts : List (Option (List Byte))}
    {files : List (List Byte × List Byte)} (hf : ∀ p : List Byte × List Byte, p ∈ files ↔ (p.1, some p.2) ∈ names.zip texts) (hn : (files.map (·.1)).Pairwise (· ≠ ·))
    (h1 : writeFiles (unknownFile unknown unk) d = (Bool.true, d1)) (h2 : writeFiles (files.map fun p => (outPath dir p.1, p.2)) d1 = (Bool.true, d2)) :
    Written d d2 dir unknown unk names texts := by
  rw [writeFiles_eq] at h1 h2
  simp only [Prod.mk.injEq] at h1 h2
  obtain ⟨a1, b1⟩ := h1
  obtain ⟨a2, b2⟩ := h2
  have tw : ∀ {α : Type} (l : List α) (f : α → Bool), l.all f = Bool.true → l.takeWhile f = l := by
    intro α l f h
    induction l with
    | nil => rfl
    | cons a l ih =>
      rw [List.all_cons, Bool.and_eq_true] at h
      rw [List.takeWhile_cons, if_pos h.1, ih h.2]
  rw [tw _ _ a1] at b1
  rw [tw _ _ a2] at b2
  have hn' : ((files.map fun p => (outPath dir p.1, p.2)).map (·.1)).Pairwise (· ≠ ·) := by
    rw [List.map_map]
    rw [List.pairwise_map] at hn ⊢
    exact hn.imp fun h e => h (outPath_inj e)
  have hu : ∀ path, (path = unknown → unknown = [] ∨ unk = []) → d1.file path = d.file path := by
    intro path h
    rw [← b1]
    apply puts_other
    intro p hp
    rw [unknownFile] at hp
    split at hp
    · cases hp
    · rename_i hx
      cases List.mem_singleton.1 hp
      intro e
      exact hx (h e.symm)
  constructor
  · intro p hp t path ht hpath
    rw [inDir_iff] at hpath
    obtain ⟨n, t'⟩ := p
    simp only at ht hpath
    subst ht; subst hpath
    rw [← b2]
    exact puts_same _ hn' d1 (outPath dir n, t) (List.mem_map.2 ⟨(n, t), (hf (n, t)).2 hp, rfl⟩)
  · intro h1 h2 h3
    rw [← b2, puts_other, ← b1, unknownFile, if_neg (by simp [h1, h2])]
    · rw [List.foldl_cons, List.foldl_nil, put_same]
    · intro p hp
      obtain ⟨q, hq, rfl⟩ := List.mem_map.1 hp
      intro e
      have := (hf q).1 hq
      exact h3 q.1 (List.of_mem_zip this).1 ((inDir_iff _ _ _).2 e.symm)
  · intro path h1 h2
    rw [← b2, puts_other, hu path h1]
    intro p hp
    obtain ⟨q, hq, rfl⟩ := List.mem_map.1 hp
    intro e
    have := h2 _ ((hf q).1 hq) ((inDir_iff _ _ _).2 e.symm)
    simp at this

theorem writeFiles_creatable : ∀ (l : List (List Byte × List Byte)) (d : Disk), (writeFiles l d).2.creatable = d.creatable
  | [], d => rfl
  | (p, t) :: l, d => by
    rw [writeFiles]
    split
    · exact writeFiles_creatable l (d.put p t)
    · rfl

theorem writeFiles_ok (l : List (List Byte × List Byte)) (d : Disk) : (writeFiles l d).1 = Bool.true ↔ ∀ p ∈ l, d.creatable p.1 = Bool.true := by
  rw [writeFiles_eq]
  simp only
  rw [List.all_eq_true]

theorem writeFiles_other (l : List (List Byte × List Byte)) (d : Disk) (q : List Byte) (h : ∀ p ∈ l, p.1 ≠ q) : (writeFiles l d).2.file q = d.file q := by
  rw [writeFiles_eq]
  simp only
  exact puts_other _ _ _ fun p hp => h p ((List.takeWhile_prefix _).subset hp)

theorem unknownFile_mem {name : List Byte} {unk : List (List Byte)} {p : List Byte × List Byte} (h : p ∈ unknownFile name unk) : p.1 = name ∧ name ≠ [] ∧ unk ≠ [] := by
  rw [unknownFile] at h
  split at h
  · cases h
  · rename_i hx
    simp only [not_or] at hx
    cases List.mem_singleton.1 h
    exact ⟨rfl, hx⟩

/-- The two groups of files, written one after the other. -/
theorem library_writes {dir unknown : List Byte} {unk : List (List Byte)} {names : List (List Byte)} {texts : List (Option (List Byte))}
    {files : List (List Byte × List Byte)} (hf : ∀ p : List Byte × List Byte, p ∈ files ↔ (p.1, some p.2) ∈ names.zip texts) (hn : (files.map (·.1)).Pairwise (· ≠ ·)) (d : Disk) :
    ((unknown ≠ [] → unk ≠ [] → d.creatable unknown = Bool.true) → (∀ p ∈ names.zip texts, ∀ path, InDir dir p.1 path → p.2 ≠ none → d.creatable path = Bool.true) →
      ∃ d1 d2, writeFiles (unknownFile unknown unk) d = (Bool.true, d1) ∧ writeFiles (files.map fun p => (outPath dir p.1, p.2)) d1 = (Bool.true, d2) ∧
        Written d d2 dir unknown unk names texts) ∧
    (unknown ≠ [] → unk ≠ [] → d.creatable unknown = Bool.false → writeFiles (unknownFile unknown unk) d = (Bool.false, d)) ∧
    ((unknown ≠ [] → unk ≠ [] → d.creatable unknown = Bool.true) → (∃ p ∈ names.zip texts, ∃ path, InDir dir p.1 path ∧ p.2 ≠ none ∧ d.creatable path = Bool.false) →
      ∃ d1 d2, writeFiles (unknownFile unknown unk) d = (Bool.true, d1) ∧ writeFiles (files.map fun p => (outPath dir p.1, p.2)) d1 = (Bool.false, d2) ∧
        ∀ path, path ≠ unknown → (∀ n ∈ names, ¬ InDir dir n path) → d2.file path = d.file path) := by
  have ok1 : (unknown ≠ [] → unk ≠ [] → d.creatable unknown = Bool.true) → (writeFiles (unknownFile unknown unk) d).1 = Bool.true := by
    intro h
    rw [writeFiles_ok]
    intro p hp
    obtain ⟨e, a, b⟩ := unknownFile_mem hp
    rw [e]; exact h a b
  refine ⟨fun h1 h2 => ?_, fun h1 h2 h3 => ?_, fun h1 h2 => ?_⟩
  · have a1 : writeFiles (unknownFile unknown unk) d = (Bool.true, (writeFiles (unknownFile unknown unk) d).2) := Prod.ext (ok1 h1) rfl
    have a2 : (writeFiles (files.map fun p => (outPath dir p.1, p.2)) (writeFiles (unknownFile unknown unk) d).2).1 = Bool.true := by
      rw [writeFiles_ok, writeFiles_creatable]
      intro p hp
      obtain ⟨q, hq, rfl⟩ := List.mem_map.1 hp
      exact h2 _ ((hf q).1 hq) _ ((inDir_iff _ _ _).2 rfl) (by simp)
    exact ⟨_, _, a1, Prod.ext a2 rfl, written_of hf hn a1 (Prod.ext a2 rfl)⟩
  · rw [unknownFile, if_neg (by simp [h1, h2]), writeFiles, if_neg (by simp [h3])]
  · have a1 : writeFiles (unknownFile unknown unk) d = (Bool.true, (writeFiles (unknownFile unknown unk) d).2) := Prod.ext (ok1 h1) rfl
    have a2 : (writeFiles (files.map fun p => (outPath dir p.1, p.2)) (writeFiles (unknownFile unknown unk) d).2).1 = Bool.false := by
      rw [← Bool.not_eq_true, writeFiles_ok, writeFiles_creatable]
      intro hall
      obtain ⟨p, hp, path, hpath, hne, hc⟩ := h2
      obtain ⟨n, t⟩ := p
      cases t with
      | none => exact hne rfl
      | some t =>
        have := hall _ (List.mem_map.2 ⟨(n, t), (hf (n, t)).2 hp, rfl⟩)
        rw [(inDir_iff _ _ _).1 hpath] at hc
        simp only at this hc
        rw [hc] at this; cases this
    refine ⟨_, _, a1, Prod.ext a2 rfl, fun path n1 n2 => ?_⟩
    rw [writeFiles_other, writeFiles_other]
    · intro p hp; rw [(unknownFile_mem hp).1]; exact Ne.symm n1
    · intro p hp
      obtain ⟨q, hq, rfl⟩ := List.mem_map.1 hp
      intro e
      exact n2 q.1 (List.of_mem_zip ((hf q).1 hq)).1 ((inDir_iff _ _ _).2 e.symm)

end Libmorph
