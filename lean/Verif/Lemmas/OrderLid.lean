import Verif.Lemmas.Order
import Verif.Props.C07
/-
The tree of numbers does not depend on the order in which the articles were filed.
-/
namespace Libmorph

/-- The same tree with other values. -/
def Forest.mapv {α : Type} (g : α → α) : Forest α → Forest α
  | .nil => .nil
  | .cons ch v sub rest => .cons ch (v.map g) (sub.mapv g) (rest.mapv g)

def Tree.mapv {α : Type} (g : α → α) (t : Tree α) : Tree α := ⟨t.val.map g, t.kids.mapv g⟩

section
variable {α : Type} (g : α → α)

theorem Forest.mapv_modify {ch : Byte} {p q : Tree α → Tree α} (h : ∀ t : Tree α, q (t.mapv g) = (p t).mapv g) :
    ∀ f : Forest α, (f.mapv g).modify ch q = (f.modify ch p).mapv g
  | .nil => by
    have := h Tree.empty
    rw [show (Tree.empty : Tree α).mapv g = Tree.empty from rfl] at this
    simp only [Forest.mapv, Forest.modify, this]
    rfl
  | .cons c v sub rest => by
    have ih := Forest.mapv_modify (ch := ch) h rest
    have h0 := h Tree.empty
    rw [show (Tree.empty : Tree α).mapv g = Tree.empty from rfl] at h0
    have h1 := h ⟨v, sub⟩
    simp only [Tree.mapv] at h1
    simp only [Forest.mapv, Forest.modify]
    split
    · rw [ih, Forest.mapv]
    · split
      · rw [h1, Forest.mapv]
      · rw [h0]; rfl

theorem Tree.mapv_insert {u u' : Option α → α} (h : ∀ o : Option α, u' (o.map g) = g (u o)) :
    ∀ (k : List Byte) (t : Tree α), (t.mapv g).insert u' k = (t.insert u k).mapv g
  | [], t => by simp only [Tree.mapv, Tree.insert, h, Option.map_some]
  | c :: k, t => by
    simp only [Tree.mapv, Tree.insert]
    rw [Forest.mapv_modify g (fun t => Tree.mapv_insert h k t)]

variable (c : Counter) (vl : α → Nat) (hg : ∀ x, vl (g x) = vl x)
include hg

theorem Forest.mapv_kidsLen : ∀ f : Forest α, (f.mapv g).kidsLen c vl = f.kidsLen c vl
  | .nil => rfl
  | .cons ch v sub rest => by
    simp only [Forest.mapv, Forest.kidsLen, Forest.mapv_kidsLen sub, Forest.mapv_kidsLen rest]
    cases v <;> simp [hg]

theorem Tree.mapv_bufLen (t : Tree α) : (t.mapv g).bufLen c vl = t.bufLen c vl := by
  simp only [Tree.bufLen, Tree.mapv, Forest.mapv_kidsLen g c vl hg]
  cases t.val <;> simp [hg]

theorem Forest.mapv_placed : ∀ (f : Forest α) (off : Nat), (f.mapv g).placed c vl off = (f.placed c vl off).map fun p => (p.1, g p.2.1, p.2.2)
  | .nil, off => rfl
  | .cons ch v sub rest, off => by
    have hb := Tree.mapv_bufLen g c vl hg ⟨v, sub⟩
    simp only [Tree.mapv] at hb
    simp only [Forest.mapv, Forest.placed, hb, Forest.mapv_placed sub, Forest.mapv_placed rest, Forest.mapv_kidsLen g c vl hg]
    cases v <;> simp [hg]

theorem Tree.mapv_placed (t : Tree α) : (t.mapv g).placed c vl = (t.placed c vl).map fun p => (p.1, g p.2.1, p.2.2) := by
  simp only [Tree.placed, Tree.mapv, Forest.mapv_placed g c vl hg, Forest.mapv_kidsLen g c vl hg]
  cases t.val <;> simp
end

theorem fileAll_recl (f : Nat → Nat) (l : List (List Byte × Entry)) : fileAll (reclAll f l) = (fileAll l).mapv (List.map (Entry.recl f)) := by
  have key : ∀ (l : List (List Byte × Entry)) (t : Tree (List Entry)),
      (reclAll f l).foldl (fun t p => fileEntry p.1 p.2 t) (t.mapv (List.map (Entry.recl f)))
        = (l.foldl (fun t p => fileEntry p.1 p.2 t) t).mapv (List.map (Entry.recl f)) := by
    intro l
    induction l with
    | nil => intro t; rfl
    | cons p l ih =>
      intro t
      simp only [reclAll, List.map_cons, List.foldl_cons] at ih ⊢
      rw [← ih]
      congr 1
      rw [fileEntry, fileEntry]
      refine Tree.mapv_insert _ (fun o => ?_) _ _
      cases o with
      | none => rfl
      | some es => simp only [Option.map_some, Option.getD_some, insEntry_recl]
  exact key l Tree.empty

theorem entriesLen_recl (f : Nat → Nat) (es : List Entry) : entriesLen (es.map (Entry.recl f)) = entriesLen es := by
  rw [entriesLen, entriesLen, List.length_map, List.map_map]
  rfl

theorem entryOffsets_recl (f : Nat → Nat) : ∀ (es : List Entry) (off : Nat), entryOffsets (es.map (Entry.recl f)) off = entryOffsets es off
  | [], _ => rfl
  | e :: es, off => by
    simp only [List.map_cons, entryOffsets]
    rw [show (e.recl f).len = e.len from rfl, entryOffsets_recl f es]
    rfl

/-- The positions of the entries do not depend on what classes they refer to. -/
theorem lidPairs_recl (f : Nat → Nat) (l : List (List Byte × Entry)) : lidPairs (fileAll (reclAll f l)) = lidPairs (fileAll l) := by
  rw [lidPairs, lidPairs, Tree.enumerate_eq, Tree.enumerate_eq, fileAll_recl, Tree.mapv_placed _ _ _ (entriesLen_recl f), List.map_map, List.flatMap_map,
    List.flatMap_map]
  congr 1
  funext p
  simp only [Function.comp, entryOffsets_recl, List.length_map]

theorem lidTree_recl (f : Nat → Nat) (l : List (List Byte × Entry)) : lidTree (fileAll (reclAll f l)) = lidTree (fileAll l) := by
  rw [lidTree, lidTree, lidPairs_recl]

theorem fileAll_order {l l' : List (List Byte × Entry)} (hp : Spec.Moved Tied l l') : fileAll l = fileAll l' := by
  refine foldl_moved (f := fun t p => fileEntry p.1 p.2 t) ?_ hp Tree.empty
  intro p q hpq t
  apply Tree.insert_comm
  intro he o
  simp only [Option.getD_some]
  exact insEntry_comm (fun hk => Classical.byContradiction fun hne => hpq ⟨he, hk, hne⟩) _

/-- The record at a position, whatever classes are referred to. -/
theorem record_recl {l : List (List Byte × Entry)} {id pos : Nat} (hm : (id, pos) ∈ lidPairs (fileAll l)) :
    ∃ k e, (k, e) ∈ l ∧ e.nlexid = id ∧ ∀ {A : List Byte} (f : Nat → Nat), DictOk A (reclAll f l) →
      (∃ rest, (stemImage (fileAll (reclAll f l))).drop pos = (e.recl f).ser ++ rest) ∧
      ∀ (σ ρ : Type) (output : Nat → Nat → List Byte → List Byte → σ → Option (Option ρ × σ)) (s : σ),
        getTrack .u8 (selectView output ((stemImage (fileAll (reclAll f l))).length - pos))
          (some ((stemImage (fileAll (reclAll f l))).length - pos)) 48 (stemImage (fileAll (reclAll f l))) [] s
          = output id (f e.oclass) k e.stpost s := by
  obtain ⟨k, es1, e, es2, o, hp, rfl, rfl⟩ := mem_lidPairs.1 hm
  obtain ⟨h1, h2⟩ := placed_filed hp
  have hmem : e ∈ filedUnder l k := by rw [← h1]; simp
  refine ⟨k, e, mem_filedUnder.1 hmem, rfl, ?_⟩
  intro A f h
  have hp' : (k, es1.map (Entry.recl f) ++ e.recl f :: es2.map (Entry.recl f), o) ∈ (fileAll (reclAll f l)).placed .u8 entriesLen := by
    rw [fileAll_recl, Tree.mapv_placed _ _ _ (entriesLen_recl f), List.mem_map]
    exact ⟨_, hp, by simp⟩
  have hlen : (es1.map (Entry.recl f) ++ e.recl f :: es2.map (Entry.recl f)).length = (es1 ++ e :: es2).length := by simp
  have hsum : ((es1.map (Entry.recl f)).map Entry.len).sum = (es1.map Entry.len).sum := by rw [List.map_map]; rfl
  constructor
  · obtain ⟨h1', -⟩ := placed_filed hp'
    have hok : EntriesOk (es1.map (Entry.recl f) ++ e.recl f :: es2.map (Entry.recl f)) := by rw [h1']; exact h.entriesOk k
    obtain ⟨tl', hdrop⟩ := Tree.placed_drop .u8 entriesSer entriesLen EntriesOk entriesSer_length _ h.all _ _ _ hp' []
    rw [List.append_nil] at hdrop
    have hs1 := sum_len_eq (es1.map (Entry.recl f)) (fun x hx => hok.2 x (by simp only [List.mem_append]; exact Or.inl hx))
    refine ⟨((es2.map (Entry.recl f)).map Entry.ser).flatten ++ tl', ?_⟩
    rw [← hlen, ← hsum, show ∀ a b : Nat, o + a + b = o + (a + b) by intros; omega, ← List.drop_drop]
    show List.drop _ (List.drop o ((fileAll (reclAll f l)).ser .u8 entriesSer entriesLen)) = _
    rw [hdrop]
    generalize es1.map (Entry.recl f) = fs1 at *
    generalize es2.map (Entry.recl f) = fs2 at *
    simp only [entriesSer, List.map_append, List.map_cons, List.flatten_append, List.flatten_cons, ← List.append_assoc]
    rw [← putserial_len, ← hs1, ← List.length_append]
    simp only [List.append_assoc]
    rw [← List.append_assoc, List.drop_left]
  · intro σ ρ output s
    have := (trackDict h output k _ _ _ o hp' s []).2
    simp only [List.append_nil, hlen, hsum] at this
    exact this

/-- Looking up a number leads to the record of one and the same article in both images. -/
theorem lid_two {α : Type} [DecidableEq α] {A A' : List Byte} {as as' : List α} {stem : α → List Byte} {ent ent' : α → Entry}
    (hm : Spec.Moved (fun a b => stem a = stem b ∧ (ent a).SameKey (ent b) ∧ a ≠ b) as as')
    (hs : ∀ a ∈ as, (ent' a).recl (fun _ => 0) = (ent a).recl (fun _ => 0))
    (h : DictOk A (as.map fun a => (stem a, ent a))) (h' : DictOk A' (as'.map fun a => (stem a, ent' a)))
    (hl : LidOk (as.map fun a => (stem a, ent a))) (hl' : LidOk (as'.map fun a => (stem a, ent' a)))
    (junk : List Byte) (id : Nat) (hj : 4 ≤ (lexkey id).length + junk.length) (hex : ∃ a ∈ as, (ent a).nlexid = id) :
    ∃ pos a, a ∈ as ∧ (ent a).nlexid = id ∧
      lidLookup (lidImage (lidTree (fileAll (as.map fun a => (stem a, ent a))))) junk id = some (some pos) ∧
      lidLookup (lidImage (lidTree (fileAll (as'.map fun a => (stem a, ent' a))))) junk id = some (some pos) ∧
      (∃ rest, (stemImage (fileAll (as.map fun a => (stem a, ent a)))).drop pos = (ent a).ser ++ rest) ∧
      (∃ rest, (stemImage (fileAll (as'.map fun a => (stem a, ent' a)))).drop pos = (ent' a).ser ++ rest) ∧
      (∀ (σ ρ : Type) (output : Nat → Nat → List Byte → List Byte → σ → Option (Option ρ × σ)) (s : σ),
        getTrack .u8 (selectView output ((stemImage (fileAll (as.map fun a => (stem a, ent a)))).length - pos))
          (some ((stemImage (fileAll (as.map fun a => (stem a, ent a)))).length - pos)) 48
          (stemImage (fileAll (as.map fun a => (stem a, ent a)))) [] s = output id (ent a).oclass (stem a) (ent a).stpost s) ∧
      ∀ (σ ρ : Type) (output : Nat → Nat → List Byte → List Byte → σ → Option (Option ρ × σ)) (s : σ),
        getTrack .u8 (selectView output ((stemImage (fileAll (as'.map fun a => (stem a, ent' a)))).length - pos))
          (some ((stemImage (fileAll (as'.map fun a => (stem a, ent' a)))).length - pos)) 48
          (stemImage (fileAll (as'.map fun a => (stem a, ent' a)))) [] s = output id (ent' a).oclass (stem a) (ent a).stpost s := by
  have hp := hm.perm
  set ent0 : α → Entry := fun a => { ent a with oclass := as.idxOf a } with hent0
  set f : Nat → Nat := fun n => ((as[n]?).map fun a => (ent a).oclass).getD 0 with hf
  set f' : Nat → Nat := fun n => ((as[n]?).map fun a => (ent' a).oclass).getD 0 with hf'
  have hidx : ∀ a ∈ as, as[as.idxOf a]? = some a := fun a ha => by
    rw [List.getElem?_eq_getElem (List.idxOf_lt_length_iff.2 ha), List.getElem_idxOf]
  have hr : ∀ a ∈ as, (ent0 a).recl f = ent a := by
    intro a ha
    simp only [Entry.recl, hent0, hf, hidx a ha, Option.map_some, Option.getD_some]
  have hr' : ∀ a ∈ as, (ent0 a).recl f' = ent' a := by
    intro a ha
    have := hs a ha
    simp only [Entry.recl, Entry.mk.injEq] at this
    obtain ⟨k1, k2, k3, -, k5⟩ := this
    simp only [Entry.recl, hent0, hf', hidx a ha, Option.map_some, Option.getD_some]
    rw [← k1, ← k2, ← k3, ← k5]
  have e1 : (as.map fun a => (stem a, ent a)) = reclAll f (as.map fun a => (stem a, ent0 a)) := by
    rw [reclAll, List.map_map]
    apply List.map_congr_left
    intro a ha
    simp only [Function.comp, hr a ha]
  have e2 : (as'.map fun a => (stem a, ent' a)) = reclAll f' (as'.map fun a => (stem a, ent0 a)) := by
    rw [reclAll, List.map_map]
    apply List.map_congr_left
    intro a ha
    simp only [Function.comp, hr' a (hp.mem_iff.2 ha)]
  have hperm : Spec.Moved Tied (as.map fun a => (stem a, ent0 a)) (as'.map fun a => (stem a, ent0 a)) :=
    hm.map _ fun a _ b _ hab => ⟨hab.1, hab.2.1, fun e => hab.2.2 (by rw [e])⟩
  have hfile := fileAll_order hperm
  have e3 : fileAll (as'.map fun a => (stem a, ent' a)) = fileAll (reclAll f' (as.map fun a => (stem a, ent0 a))) := by
    rw [e2, fileAll_recl, ← hfile, ← fileAll_recl]
  have l1 := lidLookup_find h hl junk [] id hj
  have l2 := lidLookup_find h' hl' junk [] id hj
  obtain ⟨b, hb, hbid⟩ := hex
  obtain ⟨pos, p1, p2⟩ := lidLookup_present h hl junk [] id hj ⟨(stem b, ent b), List.mem_map.2 ⟨b, hb, rfl⟩, hbid⟩
  rw [List.append_nil] at l1 l2 p1
  have l2' : lidLookup (lidImage (lidTree (fileAll (as'.map fun a => (stem a, ent' a))))) junk id = some (some pos) := by
    rw [l2, e3, lidTree_recl, ← lidTree_recl f, ← e1, ← l1, p1]
  rw [e1, lidPairs_recl] at p2
  obtain ⟨k, e, m1, m2, m3⟩ := record_recl p2
  obtain ⟨a, ha, he⟩ := List.mem_map.1 m1
  simp only [Prod.mk.injEq] at he
  obtain ⟨rfl, rfl⟩ := he
  obtain ⟨r1, t1⟩ := m3 f (e1 ▸ h)
  have hd' : DictOk A' (reclAll f' (as.map fun a => (stem a, ent0 a))) := by
    have hp' : (reclAll f' (as.map fun a => (stem a, ent0 a))).Perm (as'.map fun a => (stem a, ent' a)) := by
      rw [e2]; exact hperm.perm.map _
    refine ⟨h'.alpha, h'.letters, fun p k => h'.stems p (hp'.mem_iff.1 k), fun p k => h'.short p (hp'.mem_iff.1 k), fun p k => h'.ids p (hp'.mem_iff.1 k),
      fun p k => h'.classes p (hp'.mem_iff.1 k), fun p k => h'.posts p (hp'.mem_iff.1 k), ?_, ?_⟩
    · rw [hp'.length_eq]; exact h'.count
    · rw [← e3]; exact h'.size
  obtain ⟨r2, t2⟩ := m3 f' hd'
  rw [← e1, hr a ha] at r1
  rw [← e3, hr' a ha] at r2
  refine ⟨pos, a, ha, m2, p1, l2', r1, r2, ?_, ?_⟩
  · intro σ ρ output s
    have := t1 σ ρ output s
    rw [← e1, show f (ent0 a).oclass = (ent a).oclass from congrArg Entry.oclass (hr a ha)] at this
    exact this
  · intro σ ρ output s
    have := t2 σ ρ output s
    rw [← e3, show f' (ent0 a).oclass = (ent' a).oclass from congrArg Entry.oclass (hr' a ha)] at this
    exact this

end Libmorph
