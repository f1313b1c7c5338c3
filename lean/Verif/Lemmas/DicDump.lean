import Verif.Model.DicDump
import Verif.Spec.DicDump
/-
The comparison of control dumps, for C79.
-/
namespace Libmorph
open Spec

theorem Spec.Woven.app {α : Type} {c e a c' e' a' : List α} (h : Woven c e a) (h' : Woven c' e' a') : Woven (c ++ c') (e ++ e') (a ++ a') := by
  induction h with
  | nil => exact h'
  | common x _ ih => exact .common x ih
  | extra x _ ih => exact .extra x ih

theorem woven_common {α : Type} : ∀ c : List α, Woven c [] c
  | [] => .nil
  | x :: c => .common x (woven_common c)

theorem woven_extra {α : Type} : ∀ c : List α, Woven [] c c
  | [] => .nil
  | x :: c => .extra x (woven_extra c)

theorem Spec.Woven.filt {α : Type} {p : α → Bool} {c e a : List α} (h : Woven c e a) : Woven (c.filter p) (e.filter p) (a.filter p) := by
  induction h with
  | nil => exact .nil
  | common x _ ih =>
    by_cases hp : p x = true
    · rw [List.filter_cons_of_pos hp, List.filter_cons_of_pos hp]; exact .common x ih
    · rw [List.filter_cons_of_neg hp, List.filter_cons_of_neg hp]; exact ih
  | extra x _ ih =>
    by_cases hp : p x = true
    · rw [List.filter_cons_of_pos hp, List.filter_cons_of_pos hp]; exact .extra x ih
    · rw [List.filter_cons_of_neg hp, List.filter_cons_of_neg hp]; exact ih

theorem woven_no_extra {α : Type} {c e a : List α} (h : Woven c e a) (he : e = []) : a = c := by
  induction h with
  | nil => rfl
  | common x _ ih => rw [ih he]
  | extra x _ ih => simp at he

theorem skipSame_eq : ∀ v w : List DumpLine, ∃ c, v = c ++ (skipSame v w).1 ∧ w = c ++ (skipSame v w).2 ∧
    ∀ x v' y w', (skipSame v w).1 = x :: v' → (skipSame v w).2 = y :: w' → x ≠ y
  | [], w => ⟨[], by simp [skipSame], by simp [skipSame], by simp [skipSame]⟩
  | x :: v, [] => ⟨[], by simp [skipSame], by simp [skipSame], by simp [skipSame]⟩
  | x :: v, y :: w => by
    rw [skipSame]
    by_cases h : x = y
    · rw [if_pos h]
      obtain ⟨c, h1, h2, h3⟩ := skipSame_eq v w
      refine ⟨x :: c, ?_, ?_, h3⟩
      · rw [List.cons_append, ← h1]
      · rw [List.cons_append, ← h2, h]
    · rw [if_neg h]
      refine ⟨[], rfl, rfl, ?_⟩
      intro a v' b w' e1 e2
      simp at e1 e2
      rw [← e1.1, ← e2.1]; exact h

theorem popDiff_eq (w : List DumpLine) : ∀ v, v = (popDiff w v).1 ++ (popDiff w v).2 ∧ (∀ x ∈ (popDiff w v).1, x ∉ w) ∧
    ∀ x v', (popDiff w v).2 = x :: v' → x ∈ w
  | [] => by simp [popDiff]
  | x :: v => by
    rw [popDiff]
    by_cases h : x ∈ w
    · rw [if_pos h]
      refine ⟨rfl, by simp, ?_⟩
      intro y v' e
      simp at e
      rw [← e.1]; exact h
    · rw [if_neg h]
      obtain ⟨h1, h2, h3⟩ := popDiff_eq w v
      refine ⟨?_, ?_, h3⟩
      · simp only [List.cons_append]
        rw [← h1]
      · intro y hy
        rcases List.mem_cons.1 hy with rfl | hy
        · exact h
        · exact h2 y hy

theorem loadList_eq (lim : Nat) : ∀ (src vec : List DumpLine), (∀ s ∈ src, s ≠ []) → vec ++ src = (loadList vec lim src).1 ++ (loadList vec lim src).2 ∧
    ∃ t, (loadList vec lim src).1 = vec ++ t
  | [], vec, _ => by simp [loadList]
  | s :: r, vec, h => by
    rw [loadList]
    by_cases h1 : vec.length < lim
    · rw [if_pos h1, if_neg (h s (by simp))]
      obtain ⟨e1, t, e2⟩ := loadList_eq lim r (vec ++ [s]) fun x hx => h x (by simp [hx])
      refine ⟨by rw [← e1]; simp, s :: t, by rw [e2]; simp⟩
    · rw [if_neg h1]
      exact ⟨rfl, [], by simp⟩

/-- The lines printed, left and right. -/
def lefts (o : List DiffOut) : List DumpLine := o.filterMap fun x => match x with | .left s => some s | _ => none
def rights (o : List DiffOut) : List DumpLine := o.filterMap fun x => match x with | .right s => some s | _ => none

theorem lefts_app (a b : List DiffOut) : lefts (a ++ b) = lefts a ++ lefts b := List.filterMap_append
theorem rights_app (a b : List DiffOut) : rights (a ++ b) = rights a ++ rights b := List.filterMap_append

theorem lefts_left : ∀ l : List DumpLine, lefts (l.map .left) = l ∧ rights (l.map .left) = []
  | [] => by simp [lefts, rights]
  | x :: l => by
    have := lefts_left l
    simp only [lefts, rights, List.map_cons, List.filterMap_cons] at this ⊢
    rw [this.1, this.2]; simp

theorem rights_right : ∀ l : List DumpLine, rights (l.map .right) = l ∧ lefts (l.map .right) = []
  | [] => by simp [lefts, rights]
  | x :: l => by
    have := rights_right l
    simp only [lefts, rights, List.map_cons, List.filterMap_cons] at this ⊢
    rw [this.1, this.2]; simp

/-- What is still to be compared. -/
def DiffState.todo1 (d : DiffState) : List DumpLine := d.v1 ++ d.src1
def DiffState.todo2 (d : DiffState) : List DumpLine := d.v2 ++ d.src2

/-- A step from `d` to `e`: a part of both is done. -/
structure DiffStep (d e : DiffState) : Prop where
  src1 : ∀ s ∈ e.src1, s ≠ []
  src2 : ∀ s ∈ e.src2, s ≠ []
  len1 : e.src1.length ≤ d.src1.length
  len2 : e.src2.length ≤ d.src2.length
  done : ∃ new c a b, e.out = d.out ++ new ∧ DiffOut.tooBig ∉ new ∧ d.todo1 = a ++ e.todo1 ∧ d.todo2 = b ++ e.todo2 ∧ Woven c (lefts new) a ∧ Woven c (rights new) b

theorem DiffStep.refl {d : DiffState} (h1 : ∀ s ∈ d.src1, s ≠ []) (h2 : ∀ s ∈ d.src2, s ≠ []) : DiffStep d d :=
  ⟨h1, h2, Nat.le_refl _, Nat.le_refl _, [], [], [], [], by simp, by simp, by simp, by simp, .nil, .nil⟩

theorem DiffStep.trans {d e f : DiffState} (h : DiffStep d e) (h' : DiffStep e f) : DiffStep d f := by
  obtain ⟨n, c, a, b, k1, k2, k3, k4, k5, k6⟩ := h.done
  obtain ⟨n', c', a', b', q1, q2, q3, q4, q5, q6⟩ := h'.done
  refine ⟨h'.src1, h'.src2, Nat.le_trans h'.len1 h.len1, Nat.le_trans h'.len2 h.len2, n ++ n', c ++ c', a ++ a', b ++ b', by rw [q1, k1]; simp, by simp [k2, q2], by rw [k3, q3]; simp, by rw [k4, q4]; simp, ?_, ?_⟩
  · rw [lefts_app]; exact k5.app q5
  · rw [rights_app]; exact k6.app q6

theorem DiffState.round_step {d : DiffState} (h1 : ∀ s ∈ d.src1, s ≠ []) (h2 : ∀ s ∈ d.src2, s ≠ []) :
    DiffStep d d.round ∧ (d.round.v1 = [] ↔ d.round.v2 = []) ∧
      (d.v1 ≠ [] → d.v2 ≠ [] → NoCross d.todo1 d.todo2 → d.round.todo1.length + d.round.todo2.length < d.todo1.length + d.todo2.length) := by
  obtain ⟨c, a1, a2, a3⟩ := skipSame_eq d.v1 d.v2
  generalize hv1 : (skipSame d.v1 d.v2).1 = v1 at *
  generalize hv2 : (skipSame d.v1 d.v2).2 = v2 at *
  obtain ⟨b1, b2, b3⟩ := popDiff_eq v2 v1
  generalize hl : (popDiff v2 v1).1 = l at *
  generalize hv1' : (popDiff v2 v1).2 = v1' at *
  obtain ⟨c1, c2, c3⟩ := popDiff_eq v1' v2
  generalize hr : (popDiff v1' v2).1 = r at *
  generalize hv2' : (popDiff v1' v2).2 = v2' at *
  obtain ⟨d1, t1, d2⟩ := loadList_eq v2'.length d.src1 v1' h1
  generalize hw1 : (loadList v1' v2'.length d.src1).1 = w1 at *
  generalize hs1 : (loadList v1' v2'.length d.src1).2 = s1 at *
  obtain ⟨e1, t2, e2⟩ := loadList_eq w1.length d.src2 v2' h2
  generalize hw2 : (loadList v2' w1.length d.src2).1 = w2 at *
  generalize hs2 : (loadList v2' w1.length d.src2).2 = s2 at *
  have hround : d.round = ⟨w1, w2, s1, s2, d.out ++ l.map .left ++ r.map .right⟩ := by
    rw [DiffState.round]
    simp only [hv1, hv2, hl, hv1', hr, hv2', hw1, hs1, hw2, hs2]
  -- the lists end together
  have hboth : (v1' = [] ↔ v2' = []) := by
    constructor
    · intro h
      cases hv : v2' with
      | nil => rfl
      | cons y w =>
        have := c3 y w hv
        rw [h] at this; simp at this
    · intro h
      cases hv : v1' with
      | nil => rfl
      | cons x w =>
        have h5 := b3 x w hv
        rw [c1, h, List.append_nil] at h5
        have := c2 x h5
        rw [hv] at this; simp at this
  have hempty : (w1 = [] ↔ w2 = []) := by
    by_cases h : v1' = []
    · have h' := hboth.1 h
      have k1 : w1 = [] := by
        rw [← hw1, h, h']
        cases d.src1 <;> simp [loadList]
      have k2 : w2 = [] := by
        rw [← hw2, h', k1]
        cases d.src2 <;> simp [loadList]
      simp [k1, k2]
    · have h' : v2' ≠ [] := fun k => h (hboth.2 k)
      constructor
      · intro k; rw [d2] at k; simp [h] at k
      · intro k; rw [e2] at k; simp [h'] at k
  rw [hround]
  have htodo1 : d.todo1 = (c ++ l) ++ (w1 ++ s1) := by
    rw [DiffState.todo1, a1, b1, ← d1]; simp
  have htodo2 : d.todo2 = (c ++ r) ++ (w2 ++ s2) := by
    rw [DiffState.todo2, a2, c1, ← e1]; simp
  have u1 : d.src1 = t1 ++ s1 := by
    have := d1
    rw [d2, List.append_assoc] at this
    exact List.append_cancel_left this
  have u2 : d.src2 = t2 ++ s2 := by
    have := e1
    rw [e2, List.append_assoc] at this
    exact List.append_cancel_left this
  refine ⟨⟨?_, ?_, ?_, ?_, l.map .left ++ r.map .right, c, c ++ l, c ++ r, by simp, ?_, htodo1, htodo2, ?_, ?_⟩, hempty, ?_⟩
  · intro s hs
    exact h1 s (by rw [u1]; simp; exact Or.inr hs)
  · intro s hs
    exact h2 s (by rw [u2]; simp; exact Or.inr hs)
  · simp only; rw [u1]; simp
  · simp only; rw [u2]; simp
  · simp
  · rw [lefts_app, (lefts_left l).1, (rights_right r).2, List.append_nil]
    have := (woven_common c).app (woven_extra l)
    simpa using this
  · rw [rights_app, (lefts_left l).2, (rights_right r).1, List.nil_append]
    have := (woven_common c).app (woven_extra r)
    simpa using this
  · intro n1 n2 hx
    rw [htodo1, htodo2]
    simp only [DiffState.todo1, DiffState.todo2, List.length_append]
    suffices 0 < c.length + l.length + r.length by omega
    by_contra hc
    have hc0 : c = [] := List.length_eq_zero_iff.1 (by omega)
    have hl0 : l = [] := List.length_eq_zero_iff.1 (by omega)
    have hr0 : r = [] := List.length_eq_zero_iff.1 (by omega)
    rw [hc0, List.nil_append] at a1 a2
    rw [hl0, List.nil_append] at b1
    rw [hr0, List.nil_append] at c1
    obtain ⟨x, vx, ex⟩ := List.exists_cons_of_ne_nil n1
    obtain ⟨y, vy, ey⟩ := List.exists_cons_of_ne_nil n2
    have f1 : v1' = x :: vx := by rw [← b1, ← a1, ex]
    have f2 : v2' = y :: vy := by rw [← c1, ← a2, ey]
    have g1 := b3 x vx f1
    have g2 := c3 y vy f2
    have hne := a3 x vx y vy (by rw [← a1, ex]) (by rw [← a2, ey])
    rw [← a2, ey] at g1
    rw [f1] at g2
    have m1 : x ∈ vy := by
      rcases List.mem_cons.1 g1 with k | k
      · exact absurd k hne
      · exact k
    have m2 : y ∈ vx := by
      rcases List.mem_cons.1 g2 with k | k
      · exact absurd k.symm hne
      · exact k
    refine hx x y hne ?_ ?_
    · rw [DiffState.todo1, ex]
      refine List.Sublist.trans ?_ (List.sublist_append_left _ _)
      exact List.Sublist.cons_cons x (List.singleton_sublist.2 m2)
    · rw [DiffState.todo2, ey]
      refine List.Sublist.trans ?_ (List.sublist_append_left _ _)
      exact List.Sublist.cons_cons y (List.singleton_sublist.2 m1)

end Libmorph
