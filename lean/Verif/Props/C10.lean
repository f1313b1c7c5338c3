import Verif.Lemmas.Prune
import Verif.Spec.Sample
/-! C10 — first-letter pruning reports only matching entries and loses none. -/
namespace Libmorph
variable {σ ρ : Type}

/-- The full statement: on every entry list the compiler can build, the scanner hands to the
collector exactly the fitting entries, in list order. -/
def C10_full : Prop := ∀ (l : List (List Byte × Entry)) (k rest : List Byte) (s : List (Nat × Nat)),
  lookupEntries (ρ := Unit) (fun id _ f _ s => some (none, s ++ [(id, f.len)])) ⟨rest, rest.length⟩ (filedUnder l k) s
    = some (none, s ++ (fitting (filedUnder l k) rest).map fun p => (p.1.nlexid, p.2.length))

/-- The scanner reports exactly the fitting entries, in list order, each with its ending, up to the
first result.  Missing for the full statement: the case in which the whole rest of the word is some
entry's suffix and an entry in front of it stops the scan (`Safe` fails); there the statement is false,
see `C10_counterexample`, and `C10_safe_is_exact`: the condition cannot be weakened. -/
theorem C10_pruning_partial (output : Nat → Nat → Frag → List Byte → σ → Option (Option ρ × σ))
    (l : List (List Byte × Entry)) (k rest after : List Byte) (hsafe : Safe (filedUnder l k) rest) (s : σ) :
    lookupEntries output ⟨rest ++ after, rest.length⟩ (filedUnder l k) s
      = runHits (fun e x => output e.nlexid e.oclass ⟨rest ++ after, x.length⟩ e.stpost)
          (fitting (filedUnder l k) rest) s :=
  lookupEntries_fitting output rest after _ (filedUnder_sorted l k) hsafe s

/-- In particular for stems without suffixes (the Russian and most English entries). -/
theorem C10_no_suffix (output : Nat → Nat → Frag → List Byte → σ → Option (Option ρ × σ))
    (l : List (List Byte × Entry)) (k rest after : List Byte) (hns : ∀ p ∈ l, p.1 = k → p.2.stpost = []) (s : σ) :
    lookupEntries output ⟨rest ++ after, rest.length⟩ (filedUnder l k) s
      = runHits (fun e x => output e.nlexid e.oclass ⟨rest ++ after, x.length⟩ e.stpost)
          (fitting (filedUnder l k) rest) s :=
  C10_pruning_partial output l k rest after
    (safe_of_no_suffix (fun e he => hns _ (mem_filedUnder.1 he) rfl) rest) s

/-- What is reported always fits, even on the lists where entries are lost: if the outcome is a
result, it is the collector's answer on a fitting entry. -/
theorem C10_sound (output : Nat → Nat → Frag → List Byte → σ → Option (Option ρ × σ))
    (es : List Entry) (rest after : List Byte) (s s' : σ) (r : ρ)
    (h : lookupEntries output ⟨rest ++ after, rest.length⟩ es s = some (some r, s')) :
    ∃ e ∈ es, ∃ x s0, e.Fits rest x ∧
      output e.nlexid e.oclass ⟨rest ++ after, x.length⟩ e.stpost s0 = some (some r, s') := by
  induction es generalizing s with
  | nil => simp [lookupEntries] at h
  | cons e l ih =>
    simp only [lookupEntries, suffixCheck_eq] at h
    have go : ∀ s, lookupEntries output ⟨rest ++ after, rest.length⟩ l s = some (some r, s') → _ := fun s h => ih s h
    have lift : (∃ e1 ∈ l, ∃ x s0, e1.Fits rest x ∧
        output e1.nlexid e1.oclass ⟨rest ++ after, x.length⟩ e1.stpost s0 = some (some r, s')) →
        ∃ e1 ∈ e :: l, ∃ x s0, e1.Fits rest x ∧
          output e1.nlexid e1.oclass ⟨rest ++ after, x.length⟩ e1.stpost s0 = some (some r, s') := by
      rintro ⟨e1, h1, h2⟩; exact ⟨e1, by simp [h1], h2⟩
    by_cases hsuf : e.stpost <:+ rest
    · rw [if_pos hsuf] at h
      obtain ⟨flex, rfl⟩ := hsuf
      have hlen : (flex ++ e.stpost).length - e.stpost.length = flex.length := by simp
      simp only [hlen] at h
      cases hp : pruneStep ⟨flex ++ e.stpost ++ after, (flex ++ e.stpost).length⟩ e.chrmin e.chrmax flex.length with
      | none => rw [hp] at h; simp at h
      | some pr =>
        rw [hp] at h
        cases pr with
        | stop => simp at h
        | skip => exact lift (go _ h)
        | call n =>
          have hfit : n = flex.length ∧ e.Fits (flex ++ e.stpost) flex := by
            simp only [pruneStep] at hp
            cases flex with
            | nil => simp only [List.length_nil, gt_iff_lt, Nat.lt_irrefl, if_false, Option.some.injEq, Prune.call.injEq] at hp
                     exact ⟨hp.symm, rfl, by simp⟩
            | cons b bs =>
              simp only [List.length_cons, gt_iff_lt, Nat.zero_lt_succ, if_true, List.cons_append, List.head?_cons] at hp
              split at hp
              · simp at hp
              · split at hp
                · simp at hp
                · simp only [Option.some.injEq, Prune.call.injEq] at hp
                  refine ⟨hp.symm, rfl, ?_⟩
                  simp only [List.head?_cons, Option.some.injEq]
                  rintro c rfl; omega
          obtain ⟨rfl, hfit⟩ := hfit
          simp only at h
          cases hq : output e.nlexid e.oclass ⟨flex ++ e.stpost ++ after, flex.length⟩ e.stpost s with
          | none => rw [hq] at h; simp at h
          | some z =>
            obtain ⟨q, s1⟩ := z
            rw [hq] at h
            cases q with
            | some q =>
              simp only [Option.some.injEq, Prod.mk.injEq] at h
              obtain ⟨rfl, rfl⟩ := h
              exact ⟨e, by simp, flex, s, hfit, hq⟩
            | none => exact lift (go _ h)
    · rw [if_neg hsuf] at h
      exact lift (go _ h)

/-- A collector that notes id and length of every ending it is handed. -/
abbrev noteAll : Nat → Nat → Frag → List Byte → List (Nat × Nat) → Option (Option Unit × List (Nat × Nat)) :=
  fun id _ f _ s => some (none, s ++ [(id, f.len)])

theorem runHits_noteAll (l : List (Entry × List Byte)) (mem : List Byte) (s : List (Nat × Nat)) :
    runHits (fun e x => noteAll e.nlexid e.oclass ⟨mem, x.length⟩ e.stpost) l s
      = some (none, s ++ l.map fun p => (p.1.nlexid, p.2.length)) := by
  induction l generalizing s with
  | nil => simp [runHits]
  | cons p l ih =>
    obtain ⟨e, x⟩ := p
    simp only [runHits]
    rw [ih]; simp

theorem noteAll_safe (es : List Entry) (rest after : List Byte) (s : List (Nat × Nat))
    (h : lookupEntries noteAll ⟨rest ++ after, rest.length⟩ es s
      = some (none, s ++ (fitting es rest).map fun p => (p.1.nlexid, p.2.length))) : Safe es rest := by
  induction es generalizing s with
  | nil => exact List.Pairwise.nil
  | cons e l ih =>
    simp only [Safe, List.pairwise_cons]
    simp only [lookupEntries, suffixCheck_eq] at h
    by_cases hsuf : e.stpost <:+ rest
    · rw [if_pos hsuf] at h
      obtain ⟨flex, rfl⟩ := hsuf
      have hlen : (flex ++ e.stpost).length - e.stpost.length = flex.length := by simp
      simp only [hlen, pruneStep] at h
      cases flex with
      | nil =>
        have hfo : e.flexOf ([] ++ e.stpost) = some [] := (Entry.flexOf_iff _ _ _).2 ⟨rfl, by simp⟩
        simp only [List.length_nil, gt_iff_lt, Nat.lt_irrefl, if_false, fitting, List.filterMap_cons, hfo,
          Option.map_some, List.map_cons] at h
        refine ⟨fun e1 _ _ _ hne => absurd rfl hne, ih (s ++ [(e.nlexid, 0)]) ?_⟩
        rw [h]; simp [fitting]
      | cons b bs =>
        simp only [List.length_cons, gt_iff_lt, Nat.zero_lt_succ, if_true, List.cons_append, List.head?_cons] at h
        by_cases h1 : b > e.chrmax
        · rw [if_pos h1] at h
          simp only [Option.some.injEq, Prod.mk.injEq, true_and, List.self_eq_append_right, List.map_eq_nil_iff] at h
          have hno : ∀ e1 ∈ e :: l, e1.stpost ≠ b :: (bs ++ e.stpost) := by
            intro e1 he1 hp
            have hfo : e1.flexOf (b :: (bs ++ e.stpost)) = some [] :=
              (Entry.flexOf_iff _ _ _).2 ⟨by rw [hp]; rfl, by simp⟩
            have : (e1, ([] : List Byte)) ∈ fitting (e :: l) (b :: (bs ++ e.stpost)) := by
              simp only [fitting, List.mem_filterMap]
              exact ⟨e1, he1, by rw [hfo]; rfl⟩
            rw [h] at this; simp at this
          constructor
          · intro e1 he1 hp
            exact absurd hp (hno e1 (by simp [he1]))
          · exact List.pairwise_of_forall_mem_list fun e0 _ e1 he1 hp => absurd hp (hno e1 (by simp [he1]))
        · rw [if_neg h1] at h
          refine ⟨fun e1 _ _ _ _ c hc => ?_, ?_⟩
          · simp only [List.cons_append, List.head?_cons, Option.some.injEq] at hc
            omega
          · by_cases h2 : b < e.chrmin
            · rw [if_pos h2] at h
              have hfo : e.flexOf (b :: (bs ++ e.stpost)) = none := by
                cases hx : e.flexOf (b :: (bs ++ e.stpost)) with
                | none => rfl
                | some x =>
                  exfalso
                  rw [Entry.flexOf_iff] at hx
                  obtain ⟨hx1, hx2⟩ := hx
                  have : x = b :: bs := by
                    apply List.append_cancel_right (bs := e.stpost)
                    rw [← hx1]; rfl
                  subst this
                  have := hx2 b (by simp)
                  omega
              simp only [fitting, List.filterMap_cons, hfo, Option.map_none] at h
              exact ih s h
            · rw [if_neg h2] at h
              have hfo : e.flexOf (b :: (bs ++ e.stpost)) = some (b :: bs) :=
                (Entry.flexOf_iff _ _ _).2 ⟨rfl, by simp; omega⟩
              simp only [fitting, List.filterMap_cons, hfo, Option.map_some, List.map_cons, List.length_cons] at h
              refine ih (s ++ [(e.nlexid, bs.length + 1)]) ?_
              simp only [List.cons_append, List.length_cons] at h ⊢
              rw [h]; simp [fitting]
    · rw [if_neg hsuf] at h
      have hfo : e.flexOf rest = none := by
        cases hx : e.flexOf rest with
        | none => rfl
        | some x =>
          exfalso
          rw [Entry.flexOf_iff] at hx
          exact hsuf ⟨x, hx.1.symm⟩
      simp only [fitting, List.filterMap_cons, hfo, Option.map_none] at h
      exact ⟨fun e1 _ _ hs => absurd hs hsuf, ih s h⟩

/-- The condition of `C10_pruning_partial` is exact: everything that fits is reported if and only if the
list is safe for this rest of the word. -/
theorem C10_safe_is_exact (l : List (List Byte × Entry)) (k rest after : List Byte) (s : List (Nat × Nat)) :
    lookupEntries noteAll ⟨rest ++ after, rest.length⟩ (filedUnder l k) s
        = some (none, s ++ (fitting (filedUnder l k) rest).map fun p => (p.1.nlexid, p.2.length))
      ↔ Safe (filedUnder l k) rest := by
  constructor
  · exact noteAll_safe _ rest after s
  · intro h
    rw [C10_pruning_partial noteAll l k rest after h s, runHits_noteAll]

/-- The full statement is false of the code: two uninflected articles "ad" and "ad" + "-x"; the
word "ad-x" is not recognized, because the first entry stops the scan. -/
theorem C10_counterexample : ¬ C10_full := by
  intro h
  have := h [([97, 100], ⟨0, 0, 1, 0, []⟩), ([97, 100], ⟨0, 0, 2, 0, [45, 120]⟩)] [97, 100] [45, 120] []
  revert this
  decide

/-- Non-vacuity: in the sample dictionary both entries of "cat" fit the ending "s", one fits "a". -/
example : (fitting (filedUnder sample [99, 97, 116]) [115]).map (·.1.nlexid) = [5, 300] ∧
    (fitting (filedUnder sample [99, 97, 116]) [97]).map (·.1.nlexid) = [5] ∧
    Safe (filedUnder sample [99, 97, 116]) [115] := by
  refine ⟨by decide, by decide, safe_of_no_suffix (by decide) _⟩

end Libmorph
