import Verif.Lemmas.Stems
/-! C03 — the dictionary under construction is a map from stems to entry lists. -/
namespace Libmorph

/-- After any history of insertions (each addressing a string and updating the element found
there), the tree holds under every string exactly what a map would hold, and the children of every
node are in strictly descending order (so no character occurs twice). -/
theorem C03_tree_is_map {α : Type} (h : List (List Byte × (Option α → α))) :
    (∀ k, (runHist h).find k = histFind h k) ∧ (runHist h).kids.Desc :=
  ⟨(runHist_desc_find h).2, (runHist_desc_find h).1⟩

/-- For entry lists: a stem yields exactly the entries filed under it, in the number of times they
were filed; a string under which nothing was filed yields nothing. -/
theorem C03_entries (l : List (List Byte × Entry)) (stem : List Byte) :
    match (fileAll l).find stem with
    | none => ∀ p ∈ l, p.1 ≠ stem
    | some es => es ≠ [] ∧ es.Perm ((l.filter fun p => p.1 = stem).map Prod.snd) := by
  rw [fileAll_find]
  by_cases h : stem ∈ l.map Prod.fst
  · rw [if_pos h]
    have hp : ∀ (m acc : List Entry), (m.foldl (fun acc e => insEntry e acc) acc).Perm (m ++ acc) := by
      have h1 : ∀ (e : Entry) (acc : List Entry), (insEntry e acc).Perm (e :: acc) := by
        intro e acc
        induction acc with
        | nil => exact List.Perm.refl _
        | cons x acc ih =>
          simp only [insEntry]
          split
          · exact (List.Perm.cons x ih).trans (List.Perm.swap _ _ _)
          · exact List.Perm.refl _
      intro m
      induction m with
      | nil => intro acc; exact List.Perm.refl _
      | cons e m ih =>
        intro acc
        refine (ih _).trans ?_
        refine (List.Perm.append_left m (h1 e acc)).trans ?_
        exact List.perm_middle
    have hp1 : (filedUnder l stem).Perm ((l.filter fun p => p.1 = stem).map Prod.snd) := by
      have := hp ((l.filter fun p => p.1 = stem).map Prod.snd) []
      rw [List.append_nil] at this
      exact this
    refine ⟨?_, hp1⟩
    obtain ⟨⟨k, e⟩, he, rfl⟩ := List.mem_map.1 h
    have := mem_filedUnder.2 he
    intro hn
    simp only at hn
    rw [hn] at this
    simp at this
  · rw [if_neg h]
    intro p hp hc
    exact h (List.mem_map.2 ⟨p, hp, hc⟩)

/-- Non-vacuity: a history with two strings sharing a prefix, one of them addressed twice. -/
example : (runHist [([97, 98], fun _ => 1), ([97], fun _ => 2), ([97, 98], fun o => o.getD 0 + 10)]).find [97, 98]
    = some 11 := by decide

end Libmorph
