import Verif.Lemmas.Prune
import Mathlib.Data.List.Perm.Basic
/-
The whole word scan as one list of fitting entries.
-/
namespace Libmorph
variable {σ ρ : Type}

/-- Run a callback over a list; stop at the first result. -/
def runList {α : Type} (act : α → σ → Option (Option ρ × σ)) : List α → σ → Option (Option ρ × σ)
  | [], s => some (none, s)
  | x :: l, s =>
    match act x s with
    | none => none
    | some (some r, s') => some (some r, s')
    | some (none, s') => runList act l s'

theorem runList_append {α : Type} (act : α → σ → Option (Option ρ × σ)) (l1 l2 : List α) (s : σ) :
    runList act (l1 ++ l2) s = match runList act l1 s with
      | none => none
      | some (some r, s') => some (some r, s')
      | some (none, s') => runList act l2 s' := by
  induction l1 generalizing s with
  | nil => rfl
  | cons x l1 ih =>
    simp only [List.cons_append, runList]
    cases act x s with
    | none => rfl
    | some z => obtain ⟨q, s'⟩ := z; cases q with
      | some q => rfl
      | none => exact ih s'

theorem runList_congr {α : Type} {f g : α → σ → Option (Option ρ × σ)} (l : List α) (s : σ)
    (h : ∀ x ∈ l, ∀ s, f x s = g x s) : runList f l s = runList g l s := by
  induction l generalizing s with
  | nil => rfl
  | cons x l ih =>
    simp only [runList, h x (by simp) s]
    cases g x s with
    | none => rfl
    | some z => obtain ⟨q, s'⟩ := z; cases q with
      | some q => rfl
      | none => exact ih s' (fun y hy => h y (by simp [hy]))

/-- A callback that ignores some elements runs over the others only. -/
theorem runList_filterMap {α β : Type} {f : α → σ → Option (Option ρ × σ)} {g : β → σ → Option (Option ρ × σ)}
    (pick : α → Option β) (l : List α) (s : σ)
    (h : ∀ x ∈ l, ∀ s, f x s = match pick x with | none => some (none, s) | some y => g y s) :
    runList f l s = runList g (l.filterMap pick) s := by
  induction l generalizing s with
  | nil => rfl
  | cons x l ih =>
    have ih := fun s => ih s (fun y hy => h y (by simp [hy]))
    simp only [runList, h x (by simp) s]
    cases hp : pick x with
    | none => simp only [List.filterMap_cons, hp]; exact ih s
    | some y =>
      simp only [List.filterMap_cons, hp, runList]
      cases g y s with
      | none => rfl
      | some z => obtain ⟨q, s'⟩ := z; cases q with
        | some q => rfl
        | none => exact ih s'

theorem runHits_runList {α β : Type} (act : α → β → σ → Option (Option ρ × σ)) (l : List (α × β)) (s : σ) :
    runHits act l s = runList (fun p => act p.1 p.2) l s := by
  induction l generalizing s with
  | nil => rfl
  | cons p l ih =>
    obtain ⟨a, b⟩ := p
    simp only [runHits, runList]
    cases act a b s with
    | none => rfl
    | some z => obtain ⟨q, s'⟩ := z; cases q with
      | some q => rfl
      | none => exact ih s'

theorem runList_flatMap {α β : Type} (act : β → σ → Option (Option ρ × σ)) (f : α → List β) (l : List α) (s : σ) :
    runList (fun x s => runList act (f x) s) l s = runList act (l.flatMap f) s := by
  induction l generalizing s with
  | nil => rfl
  | cons x l ih =>
    simp only [runList, List.flatMap_cons, runList_append]
    cases runList act (f x) s with
    | none => rfl
    | some z => obtain ⟨q, s'⟩ := z; cases q with
      | some q => rfl
      | none => exact ih s'

theorem runList_map {α β : Type} (act : β → σ → Option (Option ρ × σ)) (f : α → β) (l : List α) (s : σ) :
    runList act (l.map f) s = runList (fun x => act (f x)) l s := by
  induction l generalizing s with
  | nil => rfl
  | cons x l ih =>
    simp only [List.map_cons, runList]
    cases act (f x) s with
    | none => rfl
    | some z => obtain ⟨q, s'⟩ := z; cases q with
      | some q => rfl
      | none => exact ih s'

/-- All the entries that fit a word, in the order of the scan: stem, entry, ending. -/
def allHits (l : List (List Byte × Entry)) (w : List Byte) : List (List Byte × Entry × List Byte) :=
  (dictHits l w).flatMap fun p => (fitting p.1 p.2).map fun q => (w.take (w.length - p.2.length), q.1, q.2)

theorem mem_dictHits {l : List (List Byte × Entry)} {w : List Byte} {p : List Entry × List Byte} (h : p ∈ dictHits l w) :
    ∃ k, k ≤ w.length ∧ p.2 = w.drop k ∧ p.1 = filedUnder l (w.take k) := by
  simp only [dictHits, prefixHits, List.mem_filterMap, List.mem_reverse, List.mem_range] at h
  obtain ⟨k, hk, hp⟩ := h
  split at hp
  · simp only [Option.map_some, Option.some.injEq] at hp
    exact ⟨k, by omega, by rw [← hp], by rw [← hp]⟩
  · simp at hp

/-- All the entries the scan of a word hands to its collector, in order. -/
def allSeen (l : List (List Byte × Entry)) (w : List Byte) : List (List Byte × Entry × List Byte) :=
  (dictHits l w).flatMap fun p => (seen p.1 p.2).map fun q => (w.take (w.length - p.2.length), q.1, q.2)

theorem sublist_flatMap {α β : Type} {f g : α → List β} (l : List α) (h : ∀ x ∈ l, (f x).Sublist (g x)) :
    (l.flatMap f).Sublist (l.flatMap g) := by
  induction l with
  | nil => exact List.Sublist.refl _
  | cons x l ih =>
    simp only [List.flatMap_cons]
    exact (h x (by simp)).append (ih fun y hy => h y (by simp [hy]))

theorem allSeen_sublist (l : List (List Byte × Entry)) (w : List Byte) : (allSeen l w).Sublist (allHits l w) :=
  sublist_flatMap _ fun _ _ => (seen_sublist _ _).map _

theorem allSeen_eq (l : List (List Byte × Entry)) (w : List Byte)
    (hsafe : ∀ k rest, k ++ rest = w → Safe (filedUnder l k) rest) : allSeen l w = allHits l w := by
  simp only [allSeen, allHits, List.flatMap_def]
  congr 1
  apply List.map_congr_left
  intro p hp
  obtain ⟨k, hk, h1, h2⟩ := mem_dictHits hp
  rw [seen_eq_fitting p.2 p.1 (by rw [h2]; exact filedUnder_sorted l _)
    (by rw [h2, h1]; exact hsafe _ _ (List.take_append_drop k w))]

/-- Longer stems come first. -/
theorem allSeen_order (l : List (List Byte × Entry)) (w : List Byte) :
    (allSeen l w).Pairwise fun a b => b.1.length ≤ a.1.length := by
  have hd : (dictHits l w).Pairwise (fun a b => a.2.length < b.2.length) := by
    simp only [dictHits, prefixHits, List.pairwise_filterMap]
    rw [List.pairwise_reverse]
    refine List.Pairwise.imp_of_mem ?_ (List.pairwise_lt_range (n := w.length + 1))
    intro a b ha hb hab x hx y hy
    simp only [Option.map_eq_some_iff] at hx hy
    obtain ⟨_, _, rfl⟩ := hx
    obtain ⟨_, _, rfl⟩ := hy
    simp only [List.mem_range] at ha hb
    simp only [List.length_drop]; omega
  rw [allSeen, List.pairwise_flatMap]
  constructor
  · intro p _
    rw [List.pairwise_map]
    exact List.pairwise_of_forall fun _ _ => Nat.le_refl _
  · refine hd.imp ?_
    intro p q hpq x hx y hy
    obtain ⟨x', -, rfl⟩ := List.mem_map.1 hx
    obtain ⟨y', -, rfl⟩ := List.mem_map.1 hy
    simp only [List.length_take]; omega

theorem scanDict_seen {A : List Byte} {l : List (List Byte × Entry)} (h : DictOk A l)
    (output : Nat → Nat → Frag → List Byte → σ → Option (Option ρ × σ))
    (w junk tl : List Byte) (hw : w.length < maxLevels) (s : σ) :
    scanTree .u8 (lookupList output) (stemImage (fileAll l) ++ tl) ⟨w ++ junk, w.length⟩ s
      = runList (fun h => output h.2.1.nlexid h.2.1.oclass ⟨h.2.2 ++ h.2.1.stpost ++ junk, h.2.2.length⟩ h.2.1.stpost)
          (allSeen l w) s := by
  rw [scanDict h output w junk tl hw s, runHits_runList, allSeen, ← runList_flatMap]
  refine runList_congr _ _ fun p hp s => ?_
  rw [lookupEntries_seen output _ junk _, runHits_runList, runList_map]
  refine runList_congr _ _ fun q hq s => ?_
  have hq := (seen_sublist _ _).subset hq
  simp only [fitting, List.mem_filterMap, Option.map_eq_some_iff] at hq
  obtain ⟨e, -, x, hx, rfl⟩ := hq
  rw [Entry.flexOf_iff] at hx
  simp only
  rw [hx.1]

theorem scanDict_hits {A : List Byte} {l : List (List Byte × Entry)} (h : DictOk A l)
    (output : Nat → Nat → Frag → List Byte → σ → Option (Option ρ × σ))
    (w junk tl : List Byte) (hw : w.length < maxLevels)
    (hsafe : ∀ k rest, k ++ rest = w → Safe (filedUnder l k) rest) (s : σ) :
    scanTree .u8 (lookupList output) (stemImage (fileAll l) ++ tl) ⟨w ++ junk, w.length⟩ s
      = runList (fun h => output h.2.1.nlexid h.2.1.oclass ⟨h.2.2 ++ h.2.1.stpost ++ junk, h.2.2.length⟩ h.2.1.stpost)
          (allHits l w) s := by
  rw [scanDict_seen h output w junk tl hw s, allSeen_eq l w hsafe]

theorem insEntry_perm (e : Entry) (l : List Entry) : (insEntry e l).Perm (e :: l) := by
  induction l with
  | nil => exact List.Perm.refl _
  | cons y l ih =>
    simp only [insEntry]
    split
    · exact (ih.cons y).trans (List.Perm.swap e y l)
    · exact List.Perm.refl _

theorem filedUnder_perm (l : List (List Byte × Entry)) (k : List Byte) :
    (filedUnder l k).Perm ((l.filter fun p => p.1 = k).map Prod.snd) := by
  have : ∀ (m acc : List Entry), (m.foldl (fun acc e => insEntry e acc) acc).Perm (m ++ acc) := by
    intro m
    induction m with
    | nil => intro acc; exact List.Perm.refl _
    | cons e m ih =>
      intro acc
      simp only [List.foldl_cons]
      refine (ih _).trans ?_
      refine ((insEntry_perm e acc).append_left m).trans ?_
      exact List.perm_middle
  have := this ((l.filter fun p => p.1 = k).map Prod.snd) []
  simpa [filedUnder] using this

theorem flatMap_single {β : Type} (w stem : List Byte) (x : List β) :
    ((List.range (w.length + 1)).reverse.flatMap fun k => if stem = w.take k then x else [])
      = if stem <+: w then x else [] := by
  by_cases h : stem <+: w
  · rw [if_pos h]
    have hst : stem = w.take stem.length := (List.prefix_iff_eq_take.1 h)
    have hle := h.length_le
    have : (fun k => if stem = w.take k then x else []) = fun k => if k = stem.length ∨ w.length < k ∧ stem = w then x else [] := by
      funext k
      congr 1
      apply propext
      constructor
      · intro he
        have := congrArg List.length he
        simp only [List.length_take] at this
        by_cases hk : k ≤ w.length
        · left; omega
        · right; refine ⟨by omega, ?_⟩; rw [he, List.take_of_length_le (by omega)]
      · rintro (rfl | ⟨h1, rfl⟩)
        · exact hst
        · rw [List.take_of_length_le (by omega)]
    rw [this]
    have : ∀ n, stem.length < n → n ≤ w.length + 1 →
        ((List.range n).reverse.flatMap fun k => if k = stem.length ∨ w.length < k ∧ stem = w then x else []) = x := by
      intro n
      induction n with
      | zero => intro h; omega
      | succ n ih =>
        intro h1 h2
        rw [List.range_succ, List.reverse_append, List.reverse_singleton, List.singleton_append, List.flatMap_cons]
        by_cases hn : n = stem.length
        · rw [if_pos (Or.inl hn)]
          have : ((List.range n).reverse.flatMap fun k => if k = stem.length ∨ w.length < k ∧ stem = w then x else []) = [] := by
            rw [List.flatMap_eq_nil_iff]
            intro k hk
            simp only [List.mem_reverse, List.mem_range] at hk
            rw [if_neg]; rintro (h | h) <;> omega
          rw [this, List.append_nil]
        · rw [if_neg (by rintro (h | h) <;> omega), List.nil_append]
          exact ih (by omega) (by omega)
    exact this _ (by omega) (by omega)
  · rw [if_neg h, List.flatMap_eq_nil_iff]
    intro k _
    rw [if_neg]
    rintro he
    apply h
    rw [he]; exact List.take_prefix k w

/-- The entries the scan finds are those that fit, each once. -/
theorem allHits_perm (l : List (List Byte × Entry)) (w : List Byte) :
    (allHits l w).Perm (l.filterMap fun p =>
      if p.1 <+: w then (p.2.flexOf (w.drop p.1.length)).map fun x => (p.1, p.2, x) else none) := by
  have step1 : allHits l w = (List.range (w.length + 1)).reverse.flatMap fun k =>
      (fitting (filedUnder l (w.take k)) (w.drop k)).map fun q => (w.take k, q.1, q.2) := by
    simp only [allHits, dictHits, prefixHits]
    generalize hr : (List.range (w.length + 1)).reverse = ks
    have hks : ∀ k ∈ ks, k ≤ w.length := by
      intro k hk; rw [← hr] at hk; simp only [List.mem_reverse, List.mem_range] at hk; omega
    clear hr
    induction ks with
    | nil => rfl
    | cons k ks ih =>
      simp only [List.filterMap_cons, List.flatMap_cons]
      have ih := ih (fun k hk => hks k (by simp [hk]))
      have hk := hks k (by simp)
      by_cases hm : w.take k ∈ l.map Prod.fst
      · rw [if_pos hm]
        simp only [Option.map_some, List.flatMap_cons, ih]
        congr 2
        funext q
        rw [List.length_drop, show w.length - (w.length - k) = k by omega]
      · rw [if_neg hm]
        simp only [Option.map_none, ih]
        have : filedUnder l (w.take k) = [] := by
          simp only [filedUnder]
          rw [show (l.filter fun p => p.1 = w.take k) = [] from ?_]
          · rfl
          · rw [List.filter_eq_nil_iff]
            rintro ⟨a, e⟩ hp
            simp only [decide_eq_true_eq]
            rintro rfl
            exact hm (List.mem_map.2 ⟨_, hp, rfl⟩)
        rw [this]; rfl
  rw [step1]
  have step2 : ∀ k, ((fitting (filedUnder l (w.take k)) (w.drop k)).map fun q => (w.take k, q.1, q.2)).Perm
      ((l.filter fun p => p.1 = w.take k).filterMap fun p => (p.2.flexOf (w.drop k)).map fun x => (p.1, p.2, x)) := by
    intro k
    have h1 := ((filedUnder_perm l (w.take k)).filterMap fun e => (e.flexOf (w.drop k)).map fun x => (e, x)).map
      fun q => (w.take k, q.1, q.2)
    refine (show _ from h1).trans ?_
    rw [List.filterMap_map, List.map_filterMap]
    apply List.Perm.of_eq
    apply List.filterMap_congr
    rintro ⟨a, e⟩ hp
    simp only [List.mem_filter, decide_eq_true_eq] at hp
    simp only [Function.comp, Option.map_map]
    rw [← hp.2]
    rfl
  refine (List.Perm.flatMap_left _ fun k _ => step2 k).trans ?_
  clear step1 step2
  induction l with
  | nil => simp
  | cons p l ih =>
    have e1 : (fun k => ((p :: l).filter fun p => p.1 = w.take k).filterMap fun p => (p.2.flexOf (w.drop k)).map fun x => (p.1, p.2, x))
        = fun k => (if p.1 = w.take k then (((p.2.flexOf (w.drop p.1.length)).map fun x => (p.1, p.2, x)).toList) else []) ++
          ((l.filter fun p => p.1 = w.take k).filterMap fun p => (p.2.flexOf (w.drop k)).map fun x => (p.1, p.2, x)) := by
      funext k
      by_cases hk : p.1 = w.take k
      · have hd : w.drop k = w.drop p.1.length := by
          rw [hk, List.length_take]
          by_cases hkl : k ≤ w.length
          · rw [Nat.min_eq_left hkl]
          · rw [Nat.min_eq_right (by omega), List.drop_of_length_le (by omega), List.drop_of_length_le (by omega)]
        simp only [List.filter_cons, hk, decide_true, if_true, List.filterMap_cons]
        rw [hd, hk]
        cases (p.2.flexOf (List.drop (List.take k w).length w)) with
        | none => rfl
        | some x => rfl
      · simp [List.filter_cons, hk]
    rw [e1]
    refine (List.flatMap_append_perm _ _ _).symm.trans ?_
    rw [flatMap_single]
    by_cases hpre : p.1 <+: w
    · rw [if_pos hpre]
      simp only [List.filterMap_cons, if_pos hpre]
      cases hx : p.2.flexOf (w.drop p.1.length) with
      | none => simpa [hx] using ih
      | some x => simpa [hx] using ih
    · rw [if_neg hpre]
      simp only [List.filterMap_cons, if_neg hpre]
      simpa using ih

end Libmorph
