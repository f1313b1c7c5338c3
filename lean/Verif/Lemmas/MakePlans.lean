import Verif.Lemmas.MakeClasses
/-
Lemmas: the lists of forms of the two tools against the tables of the specification.
-/
namespace Libmorph

theorem wantedForms_perm (low : Byte → Byte) (F : Nat → List (List Byte)) {a b : List (Nat × Nat)} (h : a.Perm b) :
    (wantedForms low F a).Perm (wantedForms low F b) := h.flatMap_right _

theorem wantedForms_append (low : Byte → Byte) (F : Nat → List (List Byte)) (a b : List (Nat × Nat)) :
    wantedForms low F (a ++ b) = wantedForms low F a ++ wantedForms low F b := List.flatMap_append

theorem renumForms_perm (low : Byte → Byte) (F : Nat → List (List Byte)) (w : List (Nat × Nat)) (ids : List Nat) {fs : List MForm}
    (h : fs.Perm (wantedForms low F (asIs ids))) :
    (renumForms w fs).Perm (wantedForms low F (ids.map fun i => (renumId w i, i))) := by
  refine (sortForms_perm _).trans ((h.map _).trans (List.Perm.of_eq ?_))
  simp [wantedForms, asIs, List.flatMap_map, List.map_flatMap, Function.comp_def]

theorem xpandForms_perm (low : Byte → Byte) (F : Nat → List (List Byte)) (w : List (Nat × Nat)) (ids : List Nat) {fs : List MForm}
    (h : fs.Perm (wantedForms low F (asIs ids))) (hw : ∀ i ∈ ids, (w.filter fun e => e.1 = i).length ≤ 1) :
    (xpandForms w fs).Perm (wantedForms low F (asIs ids ++ ids.flatMap fun i => (w.filter fun e => e.1 = i).map fun e => (e.2, i))) := by
  rw [wantedForms_append]
  refine (sortForms_perm _).trans (h.append ((h.flatMap_right _).trans (List.Perm.of_eq ?_)))
  clear h
  induction ids with
  | nil => simp [wantedForms, asIs]
  | cons i ids ih =>
    have ih := ih fun j hj => hw j (by simp [hj])
    have h1 := hw i (by simp)
    rw [show asIs (i :: ids) = [(i, i)] ++ asIs ids from rfl, wantedForms_append, List.flatMap_append, ih, List.flatMap_cons,
      wantedForms_append]
    congr 1
    simp only [wantedForms, List.flatMap_cons, List.flatMap_nil, List.append_nil, List.flatMap_map]
    change List.flatMap (fun a => List.map (fun e => (e.2, List.map low a)) (w.filter fun e => decide (e.1 = i))) (F i) = _
    generalize w.filter (fun e => decide (e.1 = i)) = l at h1 ⊢
    rcases l with _ | ⟨e, _ | ⟨e', l⟩⟩
    · simp
    · simp [List.flatMap_pure_eq_map, ← List.map_eq_flatMap]
    · simp at h1

/-- A sorted list that has a form with the number 0 begins with one. -/
theorem sorted_head {fs : List MForm} (hs : fs.Pairwise MForm.Le) {f : MForm} (hf : f ∈ fs) (h0 : f.1 = 0) :
    fs.head?.map (·.1) = some 0 := by
  cases fs with
  | nil => simp at hf
  | cons g fs =>
    simp only [List.mem_cons] at hf
    rcases hf with rfl | hf
    · simp [h0]
    · have := (MForm.le_iff.1 ((List.pairwise_cons.1 hs).1 f hf))
      simp only [List.head?_cons, Option.map_some, Option.some.injEq]
      omega

theorem head_mem {fs : List MForm} (h : fs.head?.map (·.1) = some 0) : ∃ f ∈ fs, f.1 = 0 := by
  cases fs with
  | nil => simp at h
  | cons g fs => exact ⟨g, by simp, by simpa using h⟩

/-- What a plan asks for and makes of it, against a table. -/
def PlanFits (low : Byte → Byte) (plan : Option ((List Nat × List Nat) × (List MForm → List MForm) × Byte))
    (taken : Option (List Nat × List (Nat × Nat) × Nat)) : Prop :=
  (plan = none ∧ taken = none) ∨
  ∃ fo al change psp pairs, plan = some ((fo, al), change, psp) ∧ taken = some (fo, pairs, psp) ∧
    (∀ a ∈ fo, a ∉ al) ∧ (fo.head? = some 0 ∧ fo.Nodup ∧ ∀ a ∈ al, 0 < a) ∧ (∀ i, i ∈ fo ++ al ↔ ∃ j, (j, i) ∈ pairs) ∧
    (fo ++ al).Subperm (pairs.map (·.2)) ∧
    (∀ fs : List MForm, fs.head?.map (·.1) = some 0 → (change fs).head?.map (·.1) = some 0) ∧
    ∀ (F : Nat → List (List Byte)) (fs : List MForm), fs.Perm (wantedForms low F (asIs (fo ++ al))) → (change fs).Perm (wantedForms low F pairs)

/-- The table with the slip of the list for verbs. -/
def rusTakenActual (partSp : Nat) : Option (List Nat × List (Nat × Nat) × Nat) :=
  (rusTaken partSp).map fun t => (t.1, slipped t.2.1, t.2.2)

theorem planFits_id (low : Byte → Byte) (fo al : List Nat) (psp : Nat) (pairs : List (Nat × Nat)) (h1 : ∀ a ∈ fo, a ∉ al) (h2 : fo.head? = some 0 ∧ fo.Nodup ∧ ∀ a ∈ al, 0 < a)
    (h3 : (asIs (fo ++ al)).Perm pairs) : PlanFits low (some ((fo, al), id, psp)) (some (fo, pairs, psp)) := by
  refine .inr ⟨fo, al, id, psp, pairs, rfl, rfl, h1, h2, fun i => ?_, ?_, fun _ h => h, fun F fs h => h.trans (wantedForms_perm low F h3)⟩
  rotate_left
  · have := (h3.map (·.2)).subperm
    simpa [asIs, Function.comp_def] using this
  constructor
  · exact fun h => ⟨i, h3.mem_iff.1 (List.mem_map.2 ⟨i, h, rfl⟩)⟩
  · rintro ⟨j, h⟩
    obtain ⟨k, hk, e⟩ := List.mem_map.1 (h3.mem_iff.2 h)
    simp only [Prod.mk.injEq] at e
    exact e.2 ▸ hk

theorem planFits_xpand (low : Byte → Byte) (w : List (Nat × Nat)) (fo : List Nat) (psp : Nat) (pairs : List (Nat × Nat)) (h2 : fo.head? = some 0 ∧ fo.Nodup)
    (hw : ∀ i ∈ fo, (w.filter fun e => e.1 = i).length ≤ 1)
    (h3 : (asIs fo ++ fo.flatMap fun i => (w.filter fun e => e.1 = i).map fun e => (e.2, i)).Perm pairs) :
    PlanFits low (some ((fo, []), xpandForms w, psp)) (some (fo, pairs, psp)) := by
  refine .inr ⟨fo, [], _, psp, pairs, rfl, rfl, by simp, ⟨h2.1, h2.2, by simp⟩, fun i => ?_, ?_, fun fs h => ?_, fun F fs h => ?_⟩
  · rw [List.append_nil]
    constructor
    · exact fun h => ⟨i, h3.mem_iff.1 (List.mem_append_left _ (List.mem_map.2 ⟨i, h, rfl⟩))⟩
    · rintro ⟨j, h⟩
      rcases List.mem_append.1 (h3.mem_iff.2 h) with h | h
      · obtain ⟨k, hk, e⟩ := List.mem_map.1 h
        simp only [Prod.mk.injEq] at e
        exact e.2 ▸ hk
      · obtain ⟨k, hk, h⟩ := List.mem_flatMap.1 h
        obtain ⟨x, -, e⟩ := List.mem_map.1 h
        simp only [Prod.mk.injEq] at e
        exact e.2 ▸ hk
  · have := (h3.map (·.2)).subperm
    rw [List.map_append] at this
    refine List.Subperm.trans ?_ this
    rw [List.append_nil]
    refine (List.Sublist.trans ?_ (List.sublist_append_left _ _)).subperm
    simp [asIs, Function.comp_def]
  · obtain ⟨f, hf, h0⟩ := head_mem h
    exact sorted_head (sortForms_sorted _) ((sortForms_perm _).mem_iff.2 (List.mem_append_left _ hf)) h0
  rw [List.append_nil] at h
  exact (xpandForms_perm low F w fo h hw).trans (wantedForms_perm low F h3)

theorem planFits_renum (low : Byte → Byte) (w : List (Nat × Nat)) (fo al : List Nat) (psp : Nat) (pairs : List (Nat × Nat)) (h1 : ∀ a ∈ fo, a ∉ al) (h2 : fo.head? = some 0 ∧ fo.Nodup ∧ ∀ a ∈ al, 0 < a)
    (h0 : renumId w 0 = 0) (h3 : ((fo ++ al).map fun i => (renumId w i, i)).Perm pairs) :
    PlanFits low (some ((fo, al), renumForms w, psp)) (some (fo, pairs, psp)) := by
  refine .inr ⟨fo, al, _, psp, pairs, rfl, rfl, h1, h2, fun i => ?_, ?_, fun fs h => ?_, fun F fs h => (renumForms_perm low F w _ h).trans (wantedForms_perm low F h3)⟩
  rotate_left
  · have := (h3.map (·.2)).subperm
    simpa [Function.comp_def] using this
  · obtain ⟨f, hf, hf0⟩ := head_mem h
    exact sorted_head (f := (renumId w f.1, f.2)) (sortForms_sorted _) ((sortForms_perm _).mem_iff.2 (List.mem_map.2 ⟨f, hf, rfl⟩))
      (by rw [hf0]; exact h0)
  constructor
  · exact fun h => ⟨_, h3.mem_iff.1 (List.mem_map.2 ⟨i, h, rfl⟩)⟩
  · rintro ⟨j, h⟩
    obtain ⟨k, hk, e⟩ := List.mem_map.1 (h3.mem_iff.2 h)
    simp only [Prod.mk.injEq] at e
    exact e.2 ▸ hk

theorem engPlan_fits (low : Byte → Byte) (p : Nat) : PlanFits low (engPlan p) (engTaken p) := by
  have hand : p &&& 0x3f = p % 64 := Nat.and_two_pow_sub_one_eq_mod p 6
  unfold engPlan engTaken
  simp only [hand]
  generalize p % 64 = k
  split
  · exact planFits_id low _ _ p _ (by decide) (by decide) (by decide)
  · exact planFits_id low _ _ p _ (by decide) (by decide) (by decide)
  · exact planFits_id low _ _ p _ (by decide) (by decide) (by decide)
  · exact planFits_id low _ _ p _ (by decide) (by decide) (by decide)
  · exact planFits_id low _ _ p _ (by decide) (by decide) (by decide)
  · rename_i h1 h2 h3 h4 h5
    simp only [List.mem_cons, List.not_mem_nil, or_false]
    rw [if_neg h1, if_neg h2, if_neg (by rintro (h | h); exacts [h3 h, h4 h]), if_neg h5]
    exact .inl ⟨rfl, rfl⟩

theorem rusPlan_fits (low : Byte → Byte) (p : Nat) : PlanFits low (rusPlan p) (rusTakenActual p) := by
  have hand : p &&& 0x3f = p % 64 := Nat.and_two_pow_sub_one_eq_mod p 6
  have hmul : ∀ n, n < 64 → n ||| (p &&& wfMultiple) = n + if p.testBit 6 then 64 else 0 := by
    intro n hn
    have h64 : p &&& 64 = if p.testBit 6 then 64 else 0 := by
      have := and_two_pow_if p 6
      simpa using this
    rw [show wfMultiple = 64 from rfl, h64]
    split
    · rw [Nat.or_comm, Nat.add_comm]
      exact (Nat.two_pow_add_eq_or_of_lt (i := 6) hn 1).symm
    · simp
  unfold rusPlan rusTakenActual rusTaken
  simp only [hand]
  split
  all_goals (try rename_i hk; simp only [hk, List.mem_cons, List.not_mem_nil, or_false, Nat.reduceEqDiff, if_true, if_false, or_true, true_or, or_self, Option.map_some])
  · exact planFits_id low _ _ _ _ (by decide) (by decide +kernel) (by decide +kernel)
  · exact planFits_id low _ _ _ _ (by decide) (by decide +kernel) (by decide +kernel)
  · exact planFits_id low _ _ _ _ (by decide) (by decide +kernel) (by decide +kernel)
  · exact planFits_id low _ _ _ _ (by decide) (by decide +kernel) (by decide +kernel)
  · exact planFits_renum low _ _ _ _ _ (by decide) (by decide +kernel) (by decide) (by decide +kernel)
  · exact planFits_renum low _ _ _ _ _ (by decide) (by decide +kernel) (by decide) (by decide +kernel)
  iterate 9 (rw [hmul _ (by decide)]; exact planFits_xpand low _ _ _ _ (by decide) (by decide +kernel) (by decide +kernel))
  iterate 11 exact planFits_id low _ _ _ _ (by decide) (by decide +kernel) (by decide +kernel)
  · refine .inl ⟨rfl, ?_⟩
    simp_all

end Libmorph
