import Verif.Props.C35
import Verif.Lemmas.Parts
import Verif.Spec.Order
/-
The scan of a word does not depend on the order in which the articles were filed, up to the references to classes.
-/
namespace Libmorph

/-- The entry with another reference to a class. -/
def Entry.recl (f : Nat → Nat) (e : Entry) : Entry := { e with oclass := f e.oclass }

theorem Entry.recl_lt (f : Nat → Nat) (a b : Entry) : (a.recl f).lt (b.recl f) = a.lt b := rfl

theorem insEntry_recl (f : Nat → Nat) (e : Entry) (l : List Entry) : insEntry (e.recl f) (l.map (Entry.recl f)) = (insEntry e l).map (Entry.recl f) := by
  induction l with
  | nil => rfl
  | cons x l ih =>
    rw [List.map_cons, insEntry, insEntry]
    by_cases h : x.lt e = true
    · rw [if_pos h, if_pos (by rw [Entry.recl_lt]; exact h), List.map_cons, ih]
    · rw [if_neg h, if_neg (by rw [Entry.recl_lt]; exact h)]; rfl

def reclAll (f : Nat → Nat) (l : List (List Byte × Entry)) : List (List Byte × Entry) := l.map fun p => (p.1, p.2.recl f)

theorem filedUnder_recl (f : Nat → Nat) (l : List (List Byte × Entry)) (k : List Byte) :
    filedUnder (reclAll f l) k = (filedUnder l k).map (Entry.recl f) := by
  have h : ∀ (m : List Entry) (acc : List Entry), (m.map (Entry.recl f)).foldl (fun acc e => insEntry e acc) (acc.map (Entry.recl f))
      = (m.foldl (fun acc e => insEntry e acc) acc).map (Entry.recl f) := by
    intro m
    induction m with
    | nil => intro acc; rfl
    | cons e m ih => intro acc; simp only [List.map_cons, List.foldl_cons, insEntry_recl, ih]
  have h2 : ((reclAll f l).filter fun p => p.1 = k).map (·.2) = ((l.filter fun p => p.1 = k).map (·.2)).map (Entry.recl f) := by
    rw [reclAll, List.filter_map, List.map_map, List.map_map]
    rfl
  rw [filedUnder, h2, filedUnder]
  exact h _ []

theorem seen_recl (f : Nat → Nat) (rest : List Byte) : ∀ es : List Entry, seen (es.map (Entry.recl f)) rest = (seen es rest).map fun p => (p.1.recl f, p.2)
  | [] => rfl
  | e :: es => by
    have ih := seen_recl f rest es
    simp only [List.map_cons, seen, ih, show (e.recl f).stpost = e.stpost from rfl, show (e.recl f).chrmax = e.chrmax from rfl,
      show (e.recl f).chrmin = e.chrmin from rfl]
    split
    · cases (rest.take (rest.length - e.stpost.length)).head? with
      | none => simp
      | some b => simp only; split <;> [simp; (split <;> simp)]
    · rfl

theorem allSeen_recl (f : Nat → Nat) (l : List (List Byte × Entry)) (w : List Byte) :
    allSeen (reclAll f l) w = (allSeen l w).map fun q => (q.1, q.2.1.recl f, q.2.2) := by
  have hd : dictHits (reclAll f l) w = (dictHits l w).map fun p => (p.1.map (Entry.recl f), p.2) := by
    rw [dictHits, dictHits, prefixHits, prefixHits, List.map_filterMap]
    apply List.filterMap_congr
    intro k _
    have : (reclAll f l).map Prod.fst = l.map Prod.fst := by rw [reclAll, List.map_map]; rfl
    rw [this, filedUnder_recl]
    split <;> rfl
  rw [allSeen, allSeen, hd, List.flatMap_map, List.map_flatMap]
  congr 1
  funext p
  simp only [seen_recl, List.map_map]
  rfl

theorem foldl_moved {α β : Type} {conf : α → α → Prop} {f : β → α → β} (hc : ∀ a b, ¬ conf a b → ∀ z, f (f z a) b = f (f z b) a) {l l' : List α}
    (h : Spec.Moved conf l l') : ∀ z, l.foldl f z = l'.foldl f z := by
  induction h with
  | nil => intro z; rfl
  | cons a _ ih => intro z; exact ih _
  | swap a b l hn => intro z; simp only [List.foldl_cons, hc a b hn]
  | trans _ _ ih1 ih2 => intro z; rw [ih1, ih2]

namespace Spec.Moved
variable {α β : Type} {conf : α → α → Prop} {l l' : List α}

theorem perm (h : Moved conf l l') : l.Perm l' := by
  induction h with
  | nil => exact .nil
  | cons a _ ih => exact ih.cons a
  | swap a b l _ => exact .swap b a l
  | trans _ _ ih1 ih2 => exact ih1.trans ih2

theorem refl (l : List α) : Moved conf l l := by
  induction l with
  | nil => exact .nil
  | cons a l ih => exact .cons a ih

/-- Fewer conflicts. -/
theorem mono {conf' : α → α → Prop} (h : Moved conf l l') (hc : ∀ a ∈ l, ∀ b ∈ l, conf' a b → conf a b) : Moved conf' l l' := by
  induction h with
  | nil => exact .nil
  | cons a _ ih => exact .cons a (ih fun x hx y hy => hc x (by simp [hx]) y (by simp [hy]))
  | swap a b l hn => exact .swap a b l fun k => hn (hc a (by simp) b (by simp) k)
  | trans h1 _ ih1 ih2 => exact .trans (ih1 hc) (ih2 fun x hx y hy => hc x (h1.perm.mem_iff.2 hx) y (h1.perm.mem_iff.2 hy))

theorem map {conf' : β → β → Prop} (f : α → β) (hf : ∀ a ∈ l, ∀ b ∈ l, conf' (f a) (f b) → conf a b) (h : Moved conf l l') :
    Moved conf' (l.map f) (l'.map f) := by
  induction h with
  | nil => exact .nil
  | cons a _ ih => exact .cons _ (ih fun x hx y hy => hf x (by simp [hx]) y (by simp [hy]))
  | swap a b l hn => exact .swap _ _ _ fun k => hn (hf a (by simp) b (by simp) k)
  | trans h1 _ ih1 ih2 => exact .trans (ih1 hf) (ih2 fun x hx y hy => hf x (h1.perm.mem_iff.2 hx) y (h1.perm.mem_iff.2 hy))

theorem filter (p : α → Bool) (h : Moved conf l l') : Moved conf (l.filter p) (l'.filter p) := by
  induction h with
  | nil => exact .nil
  | cons a _ ih => simp only [List.filter_cons]; split <;> [exact .cons a ih; exact ih]
  | swap a b l hn =>
    simp only [List.filter_cons]
    by_cases ha : p a = true <;> by_cases hb : p b = true <;> simp only [ha, hb, if_true, if_false]
    · exact .swap a b _ hn
    all_goals exact refl _
  | trans _ _ ih1 ih2 => exact .trans ih1 ih2

theorem append_left (k : List α) (h : Moved conf l l') : Moved conf (k ++ l) (k ++ l') := by
  induction k with
  | nil => exact h
  | cons a k ih => exact .cons a ih

/-- An article moves over those it has no conflict with. -/
theorem over (a : α) (k r : List α) (h : ∀ x ∈ k, ¬ conf a x) : Moved conf (a :: (k ++ r)) (k ++ a :: r) := by
  induction k with
  | nil => exact refl _
  | cons x k ih => exact .trans (.swap a x _ (h x (by simp))) (.cons x (ih fun y hy => h y (by simp [hy])))

theorem blocks (k1 k2 r : List α) (h : ∀ a ∈ k1, ∀ x ∈ k2, ¬ conf a x) : Moved conf (k1 ++ (k2 ++ r)) (k2 ++ (k1 ++ r)) := by
  induction k1 with
  | nil => exact refl _
  | cons a k1 ih =>
    refine .trans (.cons a (ih fun b hb => h b (by simp [hb]))) ?_
    exact over a k2 _ (h a (by simp))

/-- Groups in another order. -/
theorem groups {gs gs' : List (List α)} (hp : gs.Perm gs')
    (hc : gs.Pairwise fun g1 g2 => ∀ a ∈ g1, ∀ b ∈ g2, ¬ conf a b ∧ ¬ conf b a) : Moved conf gs.flatten gs'.flatten := by
  induction hp with
  | nil => exact .nil
  | cons g _ ih => simp only [List.flatten_cons]; exact append_left g (ih (List.pairwise_cons.1 hc).2)
  | swap g g' l =>
    simp only [List.flatten_cons]
    exact blocks g' g _ fun a ha x hx => ((List.pairwise_cons.1 hc).1 g (by simp) a ha x hx).1
  | trans h1 _ ih1 ih2 =>
    refine .trans (ih1 hc) (ih2 ?_)
    exact (h1.pairwise_iff (fun {g1 g2} hs a ha b hb => (hs b hb a ha).symm)).1 hc

theorem of_perm (hp : l.Perm l') (hc : ∀ a ∈ l, ∀ b ∈ l, ¬ conf a b) : Moved conf l l' := by
  induction hp with
  | nil => exact .nil
  | cons a _ ih => exact .cons a (ih fun x hx y hy => hc x (by simp [hx]) y (by simp [hy]))
  | swap a b l => exact .swap b a l (hc b (by simp) a (by simp))
  | trans h1 _ ih1 ih2 => exact .trans (ih1 hc) (ih2 fun x hx y hy => hc x (h1.mem_iff.2 hx) y (h1.mem_iff.2 hy))

end Spec.Moved

/-- Entries that stand in the order of their filing. -/
def Tied (p q : List Byte × Entry) : Prop := p.1 = q.1 ∧ p.2.SameKey q.2 ∧ p.2 ≠ q.2

theorem filedUnder_order {l l' : List (List Byte × Entry)} (hp : Spec.Moved Tied l l') (k : List Byte) : filedUnder l k = filedUnder l' k := by
  rw [filedUnder, filedUnder]
  have hp2 : Spec.Moved (fun a b : Entry => a.SameKey b ∧ a ≠ b) ((l.filter fun p => p.1 = k).map (·.2)) ((l'.filter fun p => p.1 = k).map (·.2)) := by
    refine (hp.filter _).map _ ?_
    intro p h1 q h2 h3
    simp only [List.mem_filter, decide_eq_true_eq] at h1 h2
    exact ⟨by rw [h1.2, h2.2], h3⟩
  refine foldl_moved (f := fun acc e => insEntry e acc) ?_ hp2 []
  intro a b hab z
  refine insEntry_comm (fun hs => ?_) z
  exact Classical.byContradiction fun hne => hab ⟨⟨hs.1.symm, hs.2.1.symm, hs.2.2.1.symm, hs.2.2.2.symm⟩, Ne.symm hne⟩

theorem allSeen_orders {l l' : List (List Byte × Entry)} (hp : Spec.Moved Tied l l') (w : List Byte) : allSeen l w = allSeen l' w := by
  have : dictHits l w = dictHits l' w := by
    rw [dictHits, dictHits]
    congr 1
    funext k
    have hm : (k ∈ l.map Prod.fst) = (k ∈ l'.map Prod.fst) := propext (hp.perm.map _).mem_iff
    simp only [hm, filedUnder_order hp]
  rw [allSeen, allSeen, this]

/-- The articles met in a scan, each with the part of the word between stem and suffix, are the same for any two orders of the articles, and are met in the
same order; the references to classes may differ. -/
theorem scan_two {α : Type} [DecidableEq α] {A A' : List Byte} {as as' : List α} {stem : α → List Byte} {ent ent' : α → Entry}
    (hm : Spec.Moved (fun a b => stem a = stem b ∧ (ent a).SameKey (ent b) ∧ a ≠ b) as as')
    (hs : ∀ a ∈ as, (ent' a).recl (fun _ => 0) = (ent a).recl (fun _ => 0))
    (h : DictOk A (as.map fun a => (stem a, ent a))) (h' : DictOk A' (as'.map fun a => (stem a, ent' a))) (w junk : List Byte) (hw : w.length < maxLevels)
    {σ ρ : Type} (output output' : Nat → Nat → Frag → List Byte → σ → Option (Option ρ × σ))
    (hout : ∀ a ∈ as, ∀ part s, w = stem a ++ part ++ (ent a).stpost →
      output (ent a).nlexid (ent a).oclass ⟨part ++ ((ent a).stpost ++ junk), part.length⟩ (ent a).stpost s =
        output' (ent a).nlexid (ent' a).oclass ⟨part ++ ((ent a).stpost ++ junk), part.length⟩ (ent a).stpost s) (s : σ) :
    scanTree .u8 (lookupList output) (stemImage (fileAll (as.map fun a => (stem a, ent a)))) ⟨w ++ junk, w.length⟩ s =
      scanTree .u8 (lookupList output') (stemImage (fileAll (as'.map fun a => (stem a, ent' a)))) ⟨w ++ junk, w.length⟩ s := by
  have hp := hm.perm
  have e1 := scanDict_seen h output w junk [] hw s
  have e2 := scanDict_seen h' output' w junk [] hw s
  rw [List.append_nil] at e1 e2
  rw [e1, e2]
  set ent0 : α → Entry := fun a => { ent a with oclass := as.idxOf a } with hent0
  set f : Nat → Nat := fun n => ((as[n]?).map fun a => (ent a).oclass).getD 0 with hf
  set f' : Nat → Nat := fun n => ((as[n]?).map fun a => (ent' a).oclass).getD 0 with hf'
  have hidx : ∀ a ∈ as, as[as.idxOf a]? = some a := fun a ha => by
    rw [List.getElem?_eq_getElem (List.idxOf_lt_length_iff.2 ha), List.getElem_idxOf]
  have hl : (as.map fun a => (stem a, ent a)) = reclAll f (as.map fun a => (stem a, ent0 a)) := by
    rw [reclAll, List.map_map]
    apply List.map_congr_left
    intro a ha
    simp only [Function.comp, Entry.recl, hent0, hf, hidx a ha, Option.map_some, Option.getD_some]
  have hl' : (as'.map fun a => (stem a, ent' a)) = reclAll f' (as'.map fun a => (stem a, ent0 a)) := by
    rw [reclAll, List.map_map]
    apply List.map_congr_left
    intro a ha
    have ha := hp.mem_iff.2 ha
    have := hs a ha
    simp only [Entry.recl, Entry.mk.injEq] at this
    obtain ⟨k1, k2, k3, -, k5⟩ := this
    simp only [Function.comp, Entry.recl, hent0, hf', hidx a ha, Option.map_some, Option.getD_some]
    rw [← k1, ← k2, ← k3, ← k5]
  have hperm : Spec.Moved Tied (as.map fun a => (stem a, ent0 a)) (as'.map fun a => (stem a, ent0 a)) :=
    hm.map _ fun a _ b _ hab => ⟨hab.1, hab.2.1, fun e => hab.2.2 (by rw [e])⟩
  rw [hl, hl', allSeen_recl, allSeen_recl, ← allSeen_orders hperm w, runList_map, runList_map]
  refine runList_congr _ _ fun q hq s => ?_
  obtain ⟨k, e, x⟩ := q
  have hq := (allSeen_sublist _ _).subset hq
  rw [(allHits_perm _ w).mem_iff, List.mem_filterMap] at hq
  obtain ⟨p, hp1, hp2⟩ := hq
  obtain ⟨a, ha, rfl⟩ := List.mem_map.1 hp1
  simp only at hp2
  split at hp2
  · rename_i hpre
    obtain ⟨rest, rfl⟩ := hpre
    rw [List.drop_left, Option.map_eq_some_iff] at hp2
    obtain ⟨y, hy, he⟩ := hp2
    simp only [Prod.mk.injEq] at he
    obtain ⟨rfl, rfl, rfl⟩ := he
    rw [Entry.flexOf_iff] at hy
    have := hout a ha y s (by rw [hy.1, List.append_assoc])
    simp only [Entry.recl, hent0, hf, hf', hidx a ha, Option.map_some, Option.getD_some, List.append_assoc]
    exact this
  · simp at hp2

end Libmorph
