import Verif.Lemmas.WildTree
import Verif.Lemmas.Dict
import Verif.Lemmas.Prune
/-
Wildcard search: the lists of the stem tree, and the whole scan of a compiled stem tree.
-/
namespace Libmorph

variable {σ ε : Type} {cap : Nat} {reg : ε → σ → Option σ} {w : List Byte}

/-- The first letter of the rest of a template lies within the bounds of an entry, or is a wildcard. -/
def Entry.admits (e : Entry) : List Byte → Bool
  | [] => true
  | c :: _ => isWild c || (e.chrmin ≤ c && c ≤ e.chrmax)

theorem wildListLoop_ser {target : WildTarget σ} {EV : Entry → List ε} (r tl : List Byte) :
    ∀ l : List Entry, (∀ e ∈ l, e.Ok) → l.Pairwise (fun a b => b.chrmax ≤ a.chrmax) →
      (∀ e ∈ l, Emits cap reg w (target e.nlexid e.oclass r e.stpost w.length) (EV e)) →
      Emits cap reg w (wildListLoop target r w.length l.length ((l.map Entry.ser).flatten ++ tl))
        ((l.filter fun e => e.admits r).flatMap EV) := by
  intro l
  induction l with
  | nil => intro _ _ _; exact Emits.done
  | cons e l ih =>
    intro hok hs hT
    rw [List.pairwise_cons] at hs
    have ih := ih (fun x hx => hok x (by simp [hx])) hs.2 (fun x hx => hT x (by simp [hx]))
    have hread := readEntry_ser e (hok e (by simp)) ((l.map Entry.ser).flatten ++ tl)
    have hstep : ∀ st : WildSt σ, wildListLoop target r w.length (e :: l).length (((e :: l).map Entry.ser).flatten ++ tl) st
        = (match wildPrune r e.chrmin e.chrmax with
          | .stop => some (0, st)
          | .skip => wildListLoop target r w.length l.length ((l.map Entry.ser).flatten ++ tl) st
          | .call _ => (WildRun.seq (target e.nlexid e.oclass r e.stpost w.length)
              (wildListLoop target r w.length l.length ((l.map Entry.ser).flatten ++ tl))) st) := by
      intro st
      simp only [List.length_cons, wildListLoop, List.map_cons, List.flatten_cons, List.append_assoc, hread, bind, Option.bind, ite_getD]
      cases wildPrune r e.chrmin e.chrmax <;> rfl
    cases hp : wildPrune r e.chrmin e.chrmax with
    | call n =>
      have ha : e.admits r = true := by
        cases r with
        | nil => rfl
        | cons c r =>
          simp only [wildPrune] at hp
          simp only [Entry.admits]
          split at hp
          · simp [*]
          · split at hp
            · simp at hp
            · split at hp
              · simp at hp
              · simp only [Bool.or_eq_true, Bool.and_eq_true, decide_eq_true_eq]; right; omega
      rw [List.filter_cons, if_pos ha, List.flatMap_cons]
      refine ((hT e (by simp)).seq ih).congr ?_
      intro buf s _ _
      rw [hstep, hp]
    | skip =>
      have ha : e.admits r = false := by
        cases r with
        | nil => simp [wildPrune] at hp
        | cons c r =>
          simp only [wildPrune] at hp
          simp only [Entry.admits]
          split at hp
          · simp at hp
          · split at hp
            · simp at hp
            · split at hp
              · simp only [*, Bool.false_or, Bool.and_eq_false_iff, decide_eq_false_iff_not]; omega
              · simp at hp
      rw [List.filter_cons, if_neg (by simp [ha])]
      refine ih.congr ?_
      intro buf s _ _
      rw [hstep, hp]
    | stop =>
      have hnone : ∀ x ∈ e :: l, x.admits r = false := by
        cases r with
        | nil => simp [wildPrune] at hp
        | cons c r =>
          simp only [wildPrune] at hp
          split at hp
          · simp at hp
          · split at hp
            · rename_i hw' hc
              intro x hx
              have : x.chrmax ≤ e.chrmax := by
                rcases List.mem_cons.1 hx with rfl | hx
                · exact Nat.le_refl _
                · exact hs.1 x hx
              simp only [Entry.admits, hw', Bool.false_or, Bool.and_eq_false_iff, decide_eq_false_iff_not]; omega
            · split at hp <;> simp at hp
      rw [List.filter_eq_nil_iff.2 (fun x hx => by simp [hnone x hx]), List.flatMap_nil]
      refine Emits.done.congr ?_
      intro buf s _ _
      rw [hstep, hp]

theorem wildList_ser {target : WildTarget σ} {EV : Entry → List ε} (r tl : List Byte) (l : List Entry) (h : EntriesOk l)
    (hs : l.Pairwise (fun a b => b.chrmax ≤ a.chrmax))
    (hT : ∀ e ∈ l, Emits cap reg w (target e.nlexid e.oclass r e.stpost w.length) (EV e)) :
    Emits cap reg w (wildList target (entriesSer l ++ tl) r w.length) ((l.filter fun e => e.admits r).flatMap EV) := by
  refine (wildListLoop_ser r tl l h.2 hs hT).congr ?_
  intro buf s _ _
  simp only [wildList, entriesSer, List.append_assoc, getserial_putserial h.1, bind, Option.bind]

/-- Fuel enough: the image is longer than the tree is deep. -/
theorem Forest.depth_le_ser {α : Type} (sv : α → List Byte) (vl : α → Nat) (f : Forest α) : f.depth ≤ (f.kidsSer .u8 sv vl).length := by
  induction f with
  | nil => simp [Forest.depth]
  | cons ch v sub rest ih1 ih2 =>
    simp only [Forest.depth, Forest.kidsSer, List.length_append, List.length_cons]
    omega

/-- The visits of the scan of a compiled stem tree: entries with the rests of the template. -/
theorem wildScan_dict {A : List Byte} {l : List (List Byte × Entry)} (h : DictOk A l) {target : WildTarget σ}
    {EV : Entry → List Byte → List Byte → List ε}
    (hT : ∀ k e r, (k, e) ∈ l → Emits cap reg k (target e.nlexid e.oclass r e.stpost k.length) (EV e k r))
    (hcap : ∀ p ∈ l, p.1.length < cap) (hcap0 : 0 < cap) (tl : List Byte) (htl : tl ≠ []) (str : List Byte) :
    ∃ L : List (List Byte × List Byte),
      Emits cap reg [] (wildScan target (stemImage (fileAll l) ++ tl) str)
        (L.flatMap fun v => ((filedUnder l v.1).filter fun e => e.admits v.2).flatMap fun e => EV e v.1 v.2) ∧
      (∀ k r, (k, r) ∈ L ↔ (∃ e, (k, e) ∈ l) ∧ WildRest str k r) ∧
      (StarLast str → L.Pairwise fun a b => a.1 ≠ b.1) ∧
      L = wildOrder ((stemImage (fileAll l) ++ tl).length + str.length + 1) (fileAll l) str := by
  let EA : List Entry → List Byte → List Byte → List ε := fun es k r => (es.filter fun e => e.admits r).flatMap fun e => EV e k r
  have hfind : ∀ k es, (fileAll l).find k = some es → es = filedUnder l k := by
    intro k es hk
    rw [fileAll_find] at hk
    split at hk
    · simpa using hk.symm
    · simp at hk
  have hdep : (fileAll l).kids.depth < cap := by
    have := runHist_inv (entryHist l) (fun _ => True) (cap - 1) (fun _ => True) (by intros; trivial)
      (by
        intro p hp
        obtain ⟨q, hq, rfl⟩ := List.mem_map.1 hp
        have := hcap q hq
        simp only
        omega)
      (by intros; trivial)
    have := this.2.1
    rw [← fileAll_eq] at this
    omega
  obtain ⟨L, l1, l2, l3, l4⟩ := wildTree_ser (cap := cap) (reg := reg) entriesSer entriesLen EntriesOk entriesSer_length
    (act := wildList target) (EA := EA) (Q := fun es k => es = filedUnder l k ∧ ∃ e, (k, e) ∈ l)
    (by
      rintro es k r tl ⟨rfl, -⟩ hk
      refine wildList_ser r tl _ (h.entriesOk k) (filedUnder_sorted l k) ?_
      intro e he
      exact hT k e r (mem_filedUnder.1 he))
    ((stemImage (fileAll l) ++ tl).length + str.length + 1) (fileAll l) str [] h.all h.good
    (by
      intro p x hx
      rw [fileAll_find] at hx
      split at hx
      · rename_i hm
        obtain ⟨⟨k, e⟩, he, rfl⟩ := List.mem_map.1 hm
        simp only [Option.some.injEq] at hx
        exact ⟨by simpa using hx.symm, e, by simpa using he⟩
      · simp at hx) (by simpa using hdep)
    (by
      have := Forest.depth_le_ser entriesSer entriesLen (fileAll l).kids
      simp only [stemImage, Tree.ser, List.length_append]
      omega)
  refine ⟨L.map fun v => (v.2.1, v.2.2), ?_, ?_, ?_, l4⟩
  · have hev : visitEvents EA [] L = (L.map fun v => (v.2.1, v.2.2)).flatMap fun v =>
        ((filedUnder l v.1).filter fun e => e.admits v.2).flatMap fun e => EV e v.1 v.2 := by
      rw [List.flatMap_map, visitEvents]
      refine flatMap_congr' ?_
      rintro ⟨x, p, r⟩ hm
      have := hfind p x ((l2 x p r).1 hm).1
      simp [EA, this]
    rw [← hev]
    exact l1 tl htl
  · intro k r
    simp only [List.mem_map, Prod.mk.injEq]
    constructor
    · rintro ⟨⟨x, p, r'⟩, hm, rfl, rfl⟩
      have := (l2 x p r').1 hm
      refine ⟨?_, this.2⟩
      have h1 := this.1
      rw [fileAll_find] at h1
      split at h1
      · rename_i hm
        obtain ⟨⟨k, e⟩, he, rfl⟩ := List.mem_map.1 hm
        exact ⟨e, he⟩
      · simp at h1
    · rintro ⟨⟨e, he⟩, hr⟩
      refine ⟨(filedUnder l k, k, r), (l2 _ _ _).2 ⟨?_, hr⟩, rfl, rfl⟩
      rw [fileAll_find, if_pos (List.mem_map.2 ⟨_, he, rfl⟩)]
  · intro hs
    rw [List.pairwise_map]
    exact l3 hs

end Libmorph
