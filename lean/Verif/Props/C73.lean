import Verif.Props.C72
/-
C73: the classes that are printed.
-/
namespace Libmorph

theorem keepCount_neg : ∀ (cs : ClassMap) (r : Int), r < 0 → keepCount r cs = 0
  | [], _, _ => rfl
  | c :: cs, r, h => by
    rw [keepCount, if_neg (by omega), keepCount_neg cs _ (by omega)]

theorem keepCount_spec : ∀ (cs : ClassMap) (r : Int), keepCount r cs ≤ cs.length ∧
    ∀ k, 1 ≤ k → k ≤ cs.length → (k ≤ keepCount r cs ↔ 20 * (mapWeight (cs.take k) : Int) ≤ r)
  | [], _ => ⟨Nat.le_refl _, fun k h1 h2 => by simp at h2; omega⟩
  | c :: cs, r => by
    obtain ⟨h1, h2⟩ := keepCount_spec cs (r - 20 * c.2.modProd)
    have hw : ∀ k, (mapWeight ((c :: cs).take (k + 1)) : Int) = c.2.modProd + mapWeight (cs.take k) := by
      intro k; simp [mapWeight]
    rw [keepCount]
    split
    · rename_i hr
      refine ⟨by simp only [List.length_cons]; omega, fun k hk1 hk2 => ?_⟩
      obtain ⟨j, rfl⟩ : ∃ j, k = j + 1 := ⟨k - 1, by omega⟩
      rw [hw]
      by_cases hj : 1 ≤ j
      · have := h2 j hj (by simpa using hk2)
        rw [show j + 1 ≤ 1 + keepCount (r - 20 * (c.2.modProd : Int)) cs ↔ j ≤ keepCount (r - 20 * (c.2.modProd : Int)) cs by omega, this]
        omega
      · have : j = 0 := by omega
        subst this
        simp only [List.take_zero, mapWeight, List.map_nil, List.sum_nil]
        omega
    · rename_i hr
      rw [keepCount_neg cs _ (by omega)]
      refine ⟨by omega, fun k hk1 hk2 => ?_⟩
      obtain ⟨j, rfl⟩ : ∃ j, k = j + 1 := ⟨k - 1, by omega⟩
      rw [hw]
      omega

theorem dropIdle_pos {m : ClassMap} (h : ∀ e ∈ m, 1 ≤ e.2.modProd) : dropIdle m = m := by
  unfold dropIdle
  rcases List.eq_nil_or_concat m with rfl | ⟨l, a, rfl⟩
  · rfl
  · have := h a (by simp)
    rw [List.concat_eq_append, List.reverse_append, List.reverse_singleton, List.singleton_append, List.dropWhile_cons_of_neg (by simp; omega)]
    simp

/-- **C73** whatever the sort does with classes of equal weight: the printed classes are a beginning of the classes in order of
descending weight, the longest that has not more than 95 % of the whole weight. -/
theorem C73_selection (sort : ClassMap → ClassMap) (m : ClassMap) (hpos : ∀ e ∈ m, 1 ≤ e.2.modProd) (hperm : (sort m).Perm m) :
    ∃ rest, sort m = printedClasses sort m ++ rest ∧
      20 * mapWeight (printedClasses sort m) ≤ 19 * mapWeight m ∧
      ∀ c, c ∈ rest.head? → 19 * mapWeight m < 20 * mapWeight (printedClasses sort m ++ [c]) := by
  have hpos' : ∀ e ∈ sort m, 1 ≤ e.2.modProd := fun e he => hpos e (hperm.mem_iff.1 he)
  unfold printedClasses
  rw [dropIdle_pos hpos']
  obtain ⟨h1, h2⟩ := keepCount_spec (sort m) (19 * (mapWeight m : Int))
  have hcast : (19 * ((m.map fun c => c.2.modProd).sum : Nat) : Int) = 19 * (mapWeight m : Int) := rfl
  rw [hcast]
  generalize keepCount (19 * (mapWeight m : Int)) (sort m) = n at h1 h2
  refine ⟨(sort m).drop n, (List.take_append_drop _ _).symm, ?_, fun c hc => ?_⟩
  · by_cases hn : 1 ≤ n
    · have := (h2 n hn h1).1 (Nat.le_refl _)
      omega
    · have : n = 0 := by omega
      subst this
      simp [mapWeight]
  · have hc : (sort m)[n]? = some c := by rw [← List.head?_drop]; exact hc
    have hlt : n < (sort m).length := by
      by_contra hge
      rw [List.getElem?_eq_none (by omega)] at hc
      cases hc
    have ht : (sort m).take (n + 1) = (sort m).take n ++ [c] := by
      rw [List.take_add_one, hc]; rfl
    have := (h2 (n + 1) (by omega) hlt).not.1 (by omega)
    rw [ht] at this
    omega

/-- So every printed class has at least the weight of every class that is not. -/
theorem C73_heavier (sort : ClassMap → ClassMap) (m : ClassMap) (hpos : ∀ e ∈ m, 1 ≤ e.2.modProd) (hperm : (sort m).Perm m)
    (hsort : (sort m).Pairwise fun a b => b.2.modProd ≤ a.2.modProd) (hnd : m.Nodup) (e : ClassKey × ClassVal) (he : e ∈ printedClasses sort m)
    (d : ClassKey × ClassVal) (hd : d ∈ m) (hno : d ∉ printedClasses sort m) : d.2.modProd ≤ e.2.modProd := by
  obtain ⟨rest, h1, -⟩ := C73_selection sort m hpos hperm
  have hd' : d ∈ sort m := hperm.mem_iff.2 hd
  rw [h1] at hd' hsort
  rcases List.mem_append.1 hd' with h | h
  · exact absurd h hno
  · exact (List.pairwise_append.1 hsort).2.2 e he d h

/-- Something is always left out. -/
theorem C73_not_all (sort : ClassMap → ClassMap) (m : ClassMap) (hne : m ≠ []) (hpos : ∀ e ∈ m, 1 ≤ e.2.modProd) (hperm : (sort m).Perm m) :
    ∃ e ∈ m, ∃ rest, sort m = printedClasses sort m ++ e :: rest := by
  obtain ⟨rest, h1, h2, -⟩ := C73_selection sort m hpos hperm
  cases rest with
  | nil =>
    rw [List.append_nil] at h1
    have hw : mapWeight (printedClasses sort m) = mapWeight m := by
      rw [← h1]
      exact sum_perm (hperm.map _)
    obtain ⟨c, cs, rfl⟩ := List.exists_cons_of_ne_nil hne
    have := hpos c (by simp)
    have hm : 1 ≤ mapWeight (c :: cs) := by simp [mapWeight]; omega
    omega
  | cons e rest => exact ⟨e, hperm.mem_iff.1 (by rw [h1]; simp), rest, h1⟩

/-- Classes that were collected and merged have weight. -/
theorem C73_positive {cs : List (LexClass × Bool)} {m m' : ClassMap} {φ : ClassKey → ClassKey} (hc : Collects cs m) (hm : Merged m m' φ) :
    (∀ e ∈ m, 1 ≤ e.2.modProd) ∧ ∀ e ∈ m', 1 ≤ e.2.modProd := by
  have h1 : ∀ e ∈ m, 1 ≤ e.2.modProd := by
    intro e he
    rw [(hc.vals e he).count]
    obtain ⟨c, h1, h2⟩ := (hc.keys e.1).1 (List.mem_map.2 ⟨e, he, rfl⟩)
    exact List.length_pos_of_mem (List.mem_filter.2 ⟨h1, by simpa using h2⟩)
  refine ⟨h1, fun e he => ?_⟩
  rw [hm.count e he]
  obtain ⟨h2, h3⟩ := hm.kept e.1 (List.mem_map.2 ⟨e, he, rfl⟩)
  obtain ⟨d, hd, h4⟩ := List.mem_map.1 h2
  have h5 : d ∈ joined φ m e.1 := List.mem_filter.2 ⟨hd, by simp [h4, h3]⟩
  exact Nat.le_trans (h1 d hd) (le_sum (List.mem_map.2 ⟨d, h5, rfl⟩))

/-- Of the merged sample (weights 14 and 2, 95 % of 16 are 15.2) the first class is printed, of weights 1, 1, ..., 1 (twenty) nineteen. -/
example : printedClasses id [((1, []), ⟨[], 14, false⟩), ((7, []), ⟨[], 2, false⟩)] = [((1, []), ⟨[], 14, false⟩)] := by decide
example : (printedClasses id (List.replicate 20 ((1, []), ⟨[], 1, false⟩))).length = 19 := by decide +kernel

end Libmorph
