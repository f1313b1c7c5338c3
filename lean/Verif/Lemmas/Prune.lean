import Verif.Spec.Entries
import Verif.Lemmas.Dict
namespace Libmorph
variable {σ ρ : Type}

/-- Lists built by sorted insertion have descending upper bounds. -/
theorem insEntry_sorted {e : Entry} {l : List Entry} (h : l.Pairwise (fun a b => b.chrmax ≤ a.chrmax)) :
    (insEntry e l).Pairwise (fun a b => b.chrmax ≤ a.chrmax) := by
  induction l with
  | nil => simp [insEntry]
  | cons x l ih =>
    rw [List.pairwise_cons] at h
    simp only [insEntry]
    split
    · rename_i hlt
      rw [List.pairwise_cons]
      refine ⟨?_, ih h.2⟩
      intro y hy
      rw [insEntry_mem] at hy
      rcases hy with rfl | hy
      · simp only [Entry.lt] at hlt
        split at hlt
        · simp at hlt; omega
        · rename_i h0; simp at h0; omega
      · exact h.1 y hy
    · rename_i hlt
      have hx : x.chrmax ≤ e.chrmax := by
        by_contra hc
        apply hlt
        simp only [Entry.lt]
        rw [if_pos (by omega)]
        simp; omega
      rw [List.pairwise_cons]
      refine ⟨?_, List.pairwise_cons.2 h⟩
      intro y hy
      rcases List.mem_cons.1 hy with rfl | hy
      · exact hx
      · exact Nat.le_trans (h.1 y hy) hx

theorem filedUnder_sorted (l : List (List Byte × Entry)) (k : List Byte) :
    (filedUnder l k).Pairwise (fun a b => b.chrmax ≤ a.chrmax) := by
  have : ∀ (m acc : List Entry), acc.Pairwise (fun a b => b.chrmax ≤ a.chrmax) →
      (m.foldl (fun acc e => insEntry e acc) acc).Pairwise (fun a b => b.chrmax ≤ a.chrmax) := by
    intro m
    induction m with
    | nil => intro acc h; exact h
    | cons e m ih => intro acc h; exact ih _ (insEntry_sorted h)
  exact this _ [] (by simp)

theorem suffixCheck_eq (rest junk : List Byte) (post : List Byte) :
    suffixCheck ⟨rest ++ junk, rest.length⟩ (if post.isEmpty then none else some post)
      = some (if post <:+ rest then some (rest.length - post.length) else none) := by
  cases post with
  | nil => simp [suffixCheck]
  | cons b bs =>
    simp only [List.isEmpty_cons, Bool.false_eq_true, if_false, suffixCheck]
    generalize hq : b :: bs = post
    split
    · rename_i h
      rw [if_neg]
      intro hs; have := hs.length_le; omega
    · rename_i h
      rw [if_neg (by simp)]
      have hd : ((rest ++ junk).drop (rest.length - post.length)).take post.length
          = rest.drop (rest.length - post.length) := by
        rw [List.drop_append_of_le_length (by omega)]
        rw [List.take_append_of_le_length (by simp; omega)]
        apply List.take_of_length_le; simp; omega
      rw [hd]
      by_cases hs : post <:+ rest
      · obtain ⟨p, rfl⟩ := hs
        simp
      · rw [if_pos, if_neg hs]
        intro he
        apply hs
        have := List.take_append_drop (rest.length - post.length) rest
        rw [he] at this
        exact ⟨_, this⟩

/-- The entries the loop hands to its collector: those that fit, up to the first one whose upper bound
lies below the first letter of the ending. -/
def seen : List Entry → List Byte → List (Entry × List Byte)
  | [], _ => []
  | e :: l, rest =>
    if e.stpost <:+ rest then
      let flex := rest.take (rest.length - e.stpost.length)
      match flex.head? with
      | none => (e, flex) :: seen l rest
      | some b => if b > e.chrmax then [] else if b < e.chrmin then seen l rest else (e, flex) :: seen l rest
    else seen l rest

theorem seen_sublist (es : List Entry) (rest : List Byte) : (seen es rest).Sublist (fitting es rest) := by
  induction es with
  | nil => exact List.Sublist.refl _
  | cons e l ih =>
    have skip : (seen l rest).Sublist (fitting (e :: l) rest) := by
      refine ih.trans ?_
      simp only [fitting, List.filterMap_cons]
      split
      · exact List.Sublist.refl _
      · exact List.sublist_cons_self _ _
    simp only [seen]
    by_cases hsuf : e.stpost <:+ rest
    · rw [if_pos hsuf]
      obtain ⟨flex, rfl⟩ := hsuf
      have hfl : (flex ++ e.stpost).take ((flex ++ e.stpost).length - e.stpost.length) = flex := by simp
      rw [hfl]
      cases flex with
      | nil =>
        simp only [List.head?_nil]
        have hfo : e.flexOf ([] ++ e.stpost) = some [] := (Entry.flexOf_iff _ _ _).2 ⟨rfl, by simp⟩
        rw [show fitting (e :: l) ([] ++ e.stpost) = (e, []) :: fitting l ([] ++ e.stpost) by
          simp only [fitting, List.filterMap_cons, hfo, Option.map_some]]
        exact ih.cons₂ _
      | cons b bs =>
        simp only [List.head?_cons]
        split
        · exact List.nil_sublist _
        · split
          · exact skip
          · have hfo : e.flexOf (b :: bs ++ e.stpost) = some (b :: bs) :=
              (Entry.flexOf_iff _ _ _).2 ⟨rfl, by simp; omega⟩
            rw [show fitting (e :: l) (b :: bs ++ e.stpost) = (e, b :: bs) :: fitting l (b :: bs ++ e.stpost) by
              simp only [fitting, List.filterMap_cons, hfo, Option.map_some]]
            exact ih.cons₂ _
    · rw [if_neg hsuf]; exact skip

theorem lookupEntries_seen (output : Nat → Nat → Frag → List Byte → σ → Option (Option ρ × σ))
    (rest junk : List Byte) (es : List Entry) (s : σ) :
    lookupEntries output ⟨rest ++ junk, rest.length⟩ es s
      = runHits (fun e x => output e.nlexid e.oclass ⟨rest ++ junk, x.length⟩ e.stpost) (seen es rest) s := by
  induction es generalizing s with
  | nil => rfl
  | cons e l ih =>
    simp only [lookupEntries, suffixCheck_eq, seen]
    by_cases hsuf : e.stpost <:+ rest
    · rw [if_pos hsuf, if_pos hsuf]
      obtain ⟨flex, rfl⟩ := hsuf
      have hlen : (flex ++ e.stpost).length - e.stpost.length = flex.length := by simp
      have htake : (flex ++ e.stpost).take flex.length = flex := by simp
      simp only [hlen, pruneStep, htake]
      cases flex with
      | nil =>
        simp only [List.length_nil, gt_iff_lt, Nat.lt_irrefl, if_false, List.head?_nil, runHits]
        cases output e.nlexid e.oclass ⟨[] ++ e.stpost ++ junk, 0⟩ e.stpost s with
        | none => rfl
        | some z =>
          obtain ⟨q, s'⟩ := z
          cases q with
          | some q => rfl
          | none => exact ih s'
      | cons b bs =>
        simp only [List.length_cons, gt_iff_lt, Nat.zero_lt_succ, if_true, List.cons_append, List.head?_cons]
        by_cases h1 : b > e.chrmax
        · rw [if_pos h1, if_pos h1]; rfl
        · rw [if_neg h1, if_neg h1]
          by_cases h2 : b < e.chrmin
          · rw [if_pos h2, if_pos h2]
            exact ih s
          · rw [if_neg h2, if_neg h2]
            simp only [runHits, List.length_cons]
            cases output e.nlexid e.oclass ⟨b :: (bs ++ e.stpost ++ junk), bs.length + 1⟩ e.stpost s with
            | none => rfl
            | some z =>
              obtain ⟨q, s'⟩ := z
              cases q with
              | some q => rfl
              | none => exact ih s'
    · rw [if_neg hsuf, if_neg hsuf]
      exact ih s

theorem seen_eq_fitting (rest : List Byte) (es : List Entry) (hs : es.Pairwise (fun a b => b.chrmax ≤ a.chrmax))
    (hsafe : Safe es rest) : seen es rest = fitting es rest := by
  induction es with
  | nil => rfl
  | cons e l ih =>
    rw [List.pairwise_cons] at hs
    simp only [Safe, List.pairwise_cons] at hsafe
    have ih := ih hs.2 hsafe.2
    simp only [seen]
    by_cases hsuf : e.stpost <:+ rest
    · rw [if_pos hsuf]
      obtain ⟨flex, rfl⟩ := hsuf
      have hfl : (flex ++ e.stpost).take ((flex ++ e.stpost).length - e.stpost.length) = flex := by simp
      rw [hfl]
      cases flex with
      | nil =>
        have hfo : e.flexOf ([] ++ e.stpost) = some [] := (Entry.flexOf_iff _ _ _).2 ⟨rfl, by simp⟩
        simp only [List.head?_nil]
        rw [ih]
        simp only [fitting, List.filterMap_cons, hfo, Option.map_some]
      | cons b bs =>
        simp only [List.head?_cons]
        by_cases h1 : b > e.chrmax
        · rw [if_pos h1]
          symm
          simp only [fitting, List.filterMap_eq_nil_iff, Option.map_eq_none_iff]
          intro e1 he1
          cases hx : e1.flexOf (b :: bs ++ e.stpost) with
          | none => rfl
          | some x =>
            exfalso
            rw [Entry.flexOf_iff] at hx
            obtain ⟨hx1, hx2⟩ := hx
            cases x with
            | nil =>
              simp only [List.nil_append] at hx1
              have hne : e.stpost ≠ b :: bs ++ e.stpost := by
                intro hh; have := congrArg List.length hh; simp at this; omega
              rcases List.mem_cons.1 he1 with rfl | he1
              · exact hne hx1.symm
              · have := hsafe.1 e1 he1 hx1.symm ⟨b :: bs, rfl⟩ hne b (by simp)
                omega
            | cons c cs =>
              simp only [List.cons_append, List.cons.injEq] at hx1
              have := hx2 c (by simp)
              have hle : e1.chrmax ≤ e.chrmax := by
                rcases List.mem_cons.1 he1 with rfl | he1
                · exact Nat.le_refl _
                · exact hs.1 e1 he1
              omega
        · rw [if_neg h1]
          by_cases h2 : b < e.chrmin
          · rw [if_pos h2]
            have hfo : e.flexOf (b :: bs ++ e.stpost) = none := by
              cases hx : e.flexOf (b :: bs ++ e.stpost) with
              | none => rfl
              | some x =>
                exfalso
                rw [Entry.flexOf_iff] at hx
                obtain ⟨hx1, hx2⟩ := hx
                have : x = b :: bs := by
                  apply List.append_cancel_right (bs := e.stpost)
                  rw [← hx1]
                subst this
                have := hx2 b (by simp)
                omega
            rw [ih]
            simp only [fitting, List.filterMap_cons, hfo, Option.map_none]
          · rw [if_neg h2]
            have hfo : e.flexOf (b :: bs ++ e.stpost) = some (b :: bs) :=
              (Entry.flexOf_iff _ _ _).2 ⟨rfl, by simp; omega⟩
            rw [ih]
            simp only [fitting, List.filterMap_cons, hfo, Option.map_some]
    · rw [if_neg hsuf]
      have hfo : e.flexOf rest = none := by
        cases hx : e.flexOf rest with
        | none => rfl
        | some x =>
          exfalso
          rw [Entry.flexOf_iff] at hx
          exact hsuf ⟨x, hx.1.symm⟩
      rw [ih]
      simp only [fitting, List.filterMap_cons, hfo, Option.map_none]

theorem lookupEntries_fitting (output : Nat → Nat → Frag → List Byte → σ → Option (Option ρ × σ))
    (rest junk : List Byte) (es : List Entry) (hs : es.Pairwise (fun a b => b.chrmax ≤ a.chrmax))
    (hsafe : Safe es rest) (s : σ) :
    lookupEntries output ⟨rest ++ junk, rest.length⟩ es s
      = runHits (fun e x => output e.nlexid e.oclass ⟨rest ++ junk, x.length⟩ e.stpost) (fitting es rest) s := by
  rw [lookupEntries_seen, seen_eq_fitting rest es hs hsafe]

end Libmorph
