import Verif.Lemmas.EngScan
/-
The word scan for any list of articles that are filed each under one stem: which articles are met,
with what stands between stem and suffix.
-/
namespace Libmorph

/-- `V`: the articles met, with the parts of the word between stem and suffix; longer stems first; no
article more often than it is listed. -/
structure Parts {α : Type} [DecidableEq α] (as : List α) (stem : α → List Byte) (ent : α → Entry) (w : List Byte)
    (V : List (α × List Byte)) : Prop where
  form : ∀ p ∈ V, p.1 ∈ as ∧ w = stem p.1 ++ p.2 ++ (ent p.1).stpost
  count : ∀ a x, V.count (a, x) ≤ as.count a
  full : (∀ k rest, k ++ rest = w → Safe (filedUnder (as.map fun a => (stem a, ent a)) k) rest) →
    ∀ a x, w = stem a ++ x ++ (ent a).stpost → (∀ b, x.head? = some b → (ent a).chrmin ≤ b ∧ b ≤ (ent a).chrmax) →
      V.count (a, x) = as.count a
  order : V.Pairwise fun p q => (stem q.1).length ≤ (stem p.1).length

theorem scan_parts {α : Type} [DecidableEq α] {A : List Byte} {as : List α} {stem : α → List Byte} {ent : α → Entry}
    (h : DictOk A (as.map fun a => (stem a, ent a))) (w : List Byte) (hw : w.length < maxLevels) :
    ∃ V : List (α × List Byte), Parts as stem ent w V ∧
      ∀ {σ ρ : Type} (output : Nat → Nat → Frag → List Byte → σ → Option (Option ρ × σ)) (junk : List Byte) (s : σ),
        scanTree .u8 (lookupList output) (stemImage (fileAll (as.map fun a => (stem a, ent a)))) ⟨w ++ junk, w.length⟩ s
          = runList (fun p : α × List Byte => output (ent p.1).nlexid (ent p.1).oclass
              ⟨p.2 ++ ((ent p.1).stpost ++ junk), p.2.length⟩ (ent p.1).stpost) V s := by
  set l := as.map fun a => (stem a, ent a) with hl
  have hperm := allHits_perm l w
  rw [hl, List.filterMap_map, ← hl] at hperm
  set pick : α → Option (α × List Byte) := fun a =>
    if stem a <+: w then ((ent a).flexOf (w.drop (stem a).length)).map fun x => (a, x) else none with hpick
  have hf : (as.filterMap ((fun p : List Byte × Entry =>
      if p.1 <+: w then (p.2.flexOf (w.drop p.1.length)).map fun x => (p.1, p.2, x) else none) ∘
        fun a => (stem a, ent a)))
      = (as.filterMap pick).map fun q => (stem q.1, ent q.1, q.2) := by
    rw [List.map_filterMap]
    apply List.filterMap_congr
    intro a _
    simp only [Function.comp, hpick]
    split
    · rw [Option.map_map]; rfl
    · rfl
  rw [hf] at hperm
  obtain ⟨m', hm1, hm2⟩ := perm_map hperm
  have hsub := allSeen_sublist l w
  rw [hm2, List.sublist_map_iff] at hsub
  obtain ⟨V, hV1, hV2⟩ := hsub
  have hpk : ∀ a' a x, pick a' = some (a, x) ↔ a' = a ∧ w = stem a ++ x ++ (ent a).stpost ∧
      ∀ b, x.head? = some b → (ent a).chrmin ≤ b ∧ b ≤ (ent a).chrmax := by
    intro a' a x
    simp only [hpick]
    constructor
    · intro h1
      split at h1
      · rename_i hpre
        obtain ⟨rest, rfl⟩ := hpre
        rw [List.drop_left, Option.map_eq_some_iff] at h1
        obtain ⟨y, hy, he⟩ := h1
        obtain ⟨rfl, rfl⟩ := Prod.mk.inj he
        rw [Entry.flexOf_iff] at hy
        exact ⟨rfl, by rw [hy.1, List.append_assoc], hy.2⟩
      · simp at h1
    · rintro ⟨rfl, rfl, h2⟩
      have hfit : (ent a').flexOf (x ++ (ent a').stpost) = some x := (Entry.flexOf_iff _ _ _).2 ⟨rfl, h2⟩
      rw [List.append_assoc, if_pos (List.prefix_append _ _), List.drop_left, hfit]
      rfl
  have hcnt : ∀ a x, m'.count (a, x) = if pick a = some (a, x) then as.count a else 0 := by
    intro a x
    rw [hm1.count_eq, List.count_filterMap]
    by_cases hp : pick a = some (a, x)
    · rw [if_pos hp, List.count]
      apply List.countP_congr
      intro a' _
      simp only [beq_iff_eq]
      constructor
      · intro h1; exact ((hpk _ _ _).1 h1).1
      · rintro rfl; exact hp
    · rw [if_neg hp, List.countP_eq_zero]
      intro a' _
      simp only [beq_iff_eq]
      intro h1
      have := ((hpk _ _ _).1 h1).1
      subst this
      exact hp h1
  refine ⟨V, ⟨?_, ?_, ?_, ?_⟩, ?_⟩
  · rintro ⟨a, x⟩ hax
    have hmem := hm1.mem_iff.1 (hV1.subset hax)
    rw [List.mem_filterMap] at hmem
    obtain ⟨a', ha', h1⟩ := hmem
    obtain ⟨rfl, h2, -⟩ := (hpk _ _ _).1 h1
    exact ⟨ha', h2⟩
  · intro a x
    refine (hV1.count_le (a, x)).trans ?_
    rw [hcnt]
    split <;> omega
  · intro hs a x hw hb
    have : V = m' := by
      have hall := allSeen_eq l w hs
      apply hV1.eq_of_length
      have := congrArg List.length hall
      rw [hV2, hm2, List.length_map, List.length_map] at this
      exact this
    rw [this, hcnt, if_pos ((hpk _ _ _).2 ⟨rfl, hw, hb⟩)]
  · have := allSeen_order l w
    rw [hV2, List.pairwise_map] at this
    exact this
  · intro σ ρ output junk s
    have := scanDict_seen h output w junk [] hw s
    rw [List.append_nil] at this
    rw [this, hV2, runList_map]
    refine runList_congr _ _ fun p _ s => ?_
    rw [List.append_assoc]

end Libmorph
