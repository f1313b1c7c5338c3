import Verif.Spec.Holder
import Mathlib.Data.List.Count
/-
C33 Interface references are balanced.
-/
namespace Libmorph

section Aux

theorem refs_append (o : Nat) (a b : List RefCall) : refs o (a ++ b) = refs o a + refs o b := by
  simp only [refs, attaches, detaches, List.count_append]
  push_cast
  omega

theorem refs_attachCall (o : Nat) (p : Option Nat) : refs o (attachCall p) = if p = some o then 1 else 0 := by
  cases p with
  | none => simp [attachCall, refs, attaches, detaches]
  | some q =>
    simp only [attachCall, refs, attaches, detaches, List.count_cons, List.count_nil, Option.some.injEq, beq_iff_eq,
      RefCall.attach.injEq, reduceCtorEq, if_false]
    split <;> simp_all

theorem refs_detachCall (o : Nat) (p : Option Nat) : refs o (detachCall p) = if p = some o then -1 else 0 := by
  cases p with
  | none => simp [detachCall, refs, attaches, detaches]
  | some q =>
    simp only [detachCall, refs, attaches, detaches, List.count_cons, List.count_nil, Option.some.injEq, beq_iff_eq,
      RefCall.detach.injEq, reduceCtorEq, if_false]
    split <;> simp_all

theorem refs_factory (o q : Nat) : refs o [.factory q] = if q = o then 1 else 0 := by
  simp only [refs, attaches, detaches, List.count_cons, List.count_nil, beq_iff_eq,
    RefCall.factory.injEq, reduceCtorEq, if_false]
  split <;> simp_all

/-- Replacing the pointer of a holder. -/
theorem count_set_holder {hs : List (Option (Option Nat))} {i : Nat} {x y : Option (Option Nat)} (h : hs[i]? = some x)
    (a : Option (Option Nat)) :
    ((hs.set i y).count a : Int) = hs.count a + (if y = a then 1 else 0) - (if x = a then 1 else 0) := by
  induction hs generalizing i with
  | nil => simp at h
  | cons z hs ih =>
    cases i with
    | zero =>
      simp only [List.getElem?_cons_zero, Option.some.injEq] at h
      subst h
      simp only [List.set_cons_zero, List.count_cons, beq_iff_eq]
      push_cast
      split <;> split <;> simp
    | succ i =>
      simp only [List.getElem?_cons_succ] at h
      simp only [List.set_cons_succ, List.count_cons]
      push_cast
      rw [ih h]
      omega

/-- The invariant of one history. -/
def Balanced (s : HolderState) (raw : Nat → Nat) : Prop := ∀ o, refs o s.log = s.held o + raw o

theorem balanced_assign {s : HolderState} {raw : Nat → Nat} {i : Nat} {cur p : Option Nat}
    (hb : Balanced s raw) (hi : s.holders[i]? = some (some cur)) : Balanced (s.assign i cur p) raw := by
  intro o
  have h := hb o
  simp only [HolderState.assign, HolderState.held, refs_append, refs_attachCall, refs_detachCall] at *
  rw [count_set_holder hi, h]
  simp only [Option.some.injEq]
  split <;> split <;> simp_all <;> omega

theorem balanced_new {s : HolderState} {raw : Nat → Nat} (hb : Balanced s raw) :
    Balanced { s with holders := s.holders ++ [some none] } raw := by
  intro o
  have h := hb o
  simp only [HolderState.held, List.count_append] at *
  rw [h]
  simp

theorem balanced_step {s s' : HolderState} {raw : Nat → Nat} {op : HolderOp} (hb : Balanced s raw) (hl : s.loadOk op)
    (hs : s.step op = some s') : Balanced s' (fun o => raw o + [op].count (.raw o)) := by
  have hnew : ∀ p, Balanced (HolderState.assign { s with holders := s.holders ++ [some none] } s.holders.length none p) raw :=
    fun p => balanced_assign (balanced_new hb) (by simp)
  cases op with
  | fresh =>
    simp only [HolderState.step, Option.some.injEq] at hs
    subst hs
    simpa using balanced_new hb
  | wrap p =>
    simp only [HolderState.step, Option.some.injEq] at hs
    subst hs
    simpa using hnew p
  | copy j =>
    simp only [HolderState.step] at hs
    split at hs <;> simp only [Option.some.injEq, reduceCtorEq] at hs
    subst hs
    simpa using hnew _
  | assign i j =>
    simp only [HolderState.step] at hs
    split at hs <;> simp only [Option.some.injEq, reduceCtorEq] at hs
    rename_i cur p hi hj
    subst hs
    simpa using balanced_assign hb hi
  | destroy i =>
    simp only [HolderState.step] at hs
    split at hs <;> simp only [Option.some.injEq, reduceCtorEq] at hs
    rename_i cur hi
    subst hs
    have h1 := balanced_assign (p := none) hb hi
    intro o
    have h2 := h1 o
    have hlt : i < s.holders.length := (List.getElem?_eq_some_iff.1 hi).1
    have h3 : (s.assign i cur none).holders[i]? = some (some none) := by simp [HolderState.assign, hlt]
    simp only [HolderState.held] at *
    rw [count_set_holder h3, h2]
    simp
  | load i q =>
    simp only [HolderState.step] at hs
    split at hs <;> simp only [Option.some.injEq, reduceCtorEq] at hs
    rename_i cur hi
    subst hs
    intro o
    have h := hb o
    simp only [HolderState.loadOk] at hl
    simp only [HolderState.held, refs_append, refs_factory] at *
    rw [count_set_holder hl, h]
    simp
    split <;> omega
  | raw q =>
    simp only [HolderState.step, Option.some.injEq] at hs
    subst hs
    intro o
    have h := hb o
    simp only [HolderState.held, refs_append, refs_factory, List.count_cons, List.count_nil, beq_iff_eq, HolderOp.raw.injEq] at *
    rw [h]
    push_cast
    split <;> omega

theorem balanced_run {ops : List HolderOp} : ∀ {s s' : HolderState} {raw : Nat → Nat}, Balanced s raw →
    s.Along HolderState.loadOk ops → s.run ops = some s' → Balanced s' (fun o => raw o + rawRefs o ops) := by
  induction ops with
  | nil =>
    intro s s' raw hb _ hr
    simp only [HolderState.run, Option.some.injEq] at hr
    subst hr
    simpa [rawRefs] using hb
  | cons op ops ih =>
    intro s s' raw hb ha hr
    simp only [HolderState.run, Option.bind_eq_some_iff] at hr
    obtain ⟨s1, h1, h2⟩ := hr
    have := ih (balanced_step hb ha.1 h1) (ha.2 s1 h1) h2
    intro o
    have h3 := this o
    simp only [rawRefs, List.count_cons, List.count_nil] at *
    rw [h3]
    push_cast
    omega

theorem noDead_append {a b : List RefCall} (ha : NoDeadCalls a)
    (hb : ∀ l1 c l2 o, b = l1 ++ c :: l2 → (c = .attach o ∨ c = .detach o) → 1 ≤ refs o a + refs o l1) : NoDeadCalls (a ++ b) := by
  intro l1 c l2 o h hc
  rcases List.append_eq_append_iff.1 h with ⟨m, h1, h2⟩ | ⟨m, h1, h2⟩
  · subst h1
    rw [refs_append]
    exact hb m c l2 o h2 hc
  · cases m with
    | nil =>
      simp only [List.nil_append] at h2
      simp only [List.append_nil] at h1
      subst h1
      have := hb [] c l2 o h2.symm hc
      simpa [refs, attaches, detaches] using this
    | cons x m =>
      simp only [List.cons_append, List.cons.injEq] at h2
      obtain ⟨rfl, _⟩ := h2
      exact ha l1 c m o h1 hc

theorem noDead_assign {s : HolderState} {i : Nat} {cur p : Option Nat} (hn : NoDeadCalls s.log)
    (h1 : ∀ o, cur = some o → 1 ≤ refs o s.log) (h2 : ∀ o, p = some o → (if cur = some o then 2 else 1) ≤ refs o s.log) :
    NoDeadCalls (s.assign i cur p).log := by
  simp only [HolderState.assign]
  have hd : NoDeadCalls (s.log ++ detachCall cur) := by
    apply noDead_append hn
    intro l1 c l2 o h hc
    cases cur with
    | none => simp [detachCall] at h
    | some q =>
      simp only [detachCall] at h
      have hl1 : l1 = [] ∧ c = .detach q := by
        cases l1 with
        | nil => simp only [List.nil_append, List.cons.injEq] at h; exact ⟨rfl, h.1.symm⟩
        | cons x l1 => simp at h
      obtain ⟨rfl, rfl⟩ := hl1
      simp only [reduceCtorEq, RefCall.detach.injEq, false_or] at hc
      subst hc
      have := h1 q rfl
      simpa [refs, attaches, detaches] using this
  apply noDead_append hd
  intro l1 c l2 o h hc
  cases p with
  | none => simp [attachCall] at h
  | some q =>
    simp only [attachCall] at h
    have hl1 : l1 = [] ∧ c = .attach q := by
      cases l1 with
      | nil => simp only [List.nil_append, List.cons.injEq] at h; exact ⟨rfl, h.1.symm⟩
      | cons x l1 => simp at h
    obtain ⟨rfl, rfl⟩ := hl1
    simp only [reduceCtorEq, RefCall.attach.injEq, or_false] at hc
    subst hc
    have h3 := h2 q rfl
    rw [refs_append, refs_detachCall]
    have h4 : refs q ([] : List RefCall) = 0 := by simp [refs, attaches, detaches]
    rw [h4]
    split at h3 <;> simp_all <;> omega

theorem held_pos {s : HolderState} {i o : Nat} (h : s.holders[i]? = some (some (some o))) : 1 ≤ s.held o :=
  List.count_pos_iff.2 (List.mem_of_getElem? h)

theorem held_two {s : HolderState} {i j o : Nat} (hij : i ≠ j) (hi : s.holders[i]? = some (some (some o)))
    (hj : s.holders[j]? = some (some (some o))) : 2 ≤ s.held o := by
  have h1 := count_set_holder (y := none) hi (some (some o))
  have h2 : (s.holders.set i none)[j]? = some (some (some o)) := by rw [List.getElem?_set_ne hij]; exact hj
  have h3 : 1 ≤ (s.holders.set i none).count (some (some o)) := List.count_pos_iff.2 (List.mem_of_getElem? h2)
  simp only [reduceCtorEq, if_false, if_true] at h1
  simp only [HolderState.held]
  omega

theorem noDead_step {s s' : HolderState} {raw : Nat → Nat} {op : HolderOp} (hb : Balanced s raw) (hn : NoDeadCalls s.log)
    (hw : s.wrapOk op) (hself : op.notSelf) (hs : s.step op = some s') : NoDeadCalls s'.log := by
  have fact : ∀ o, NoDeadCalls (s.log ++ [.factory o]) := fun o => by
    apply noDead_append hn
    intro l1 c l2 q h hc
    cases l1 with
    | nil =>
      simp only [List.nil_append, List.cons.injEq] at h
      obtain ⟨rfl, _⟩ := h
      simp at hc
    | cons x l1 => simp at h
  have hal : ∀ o : Nat, 1 ≤ s.held o → 1 ≤ refs o s.log := fun o h => by have := hb o; omega
  cases op with
  | fresh =>
    simp only [HolderState.step, Option.some.injEq] at hs
    subst hs
    exact hn
  | wrap p =>
    simp only [HolderState.step, Option.some.injEq] at hs
    subst hs
    refine noDead_assign hn (by simp) fun o ho => ?_
    subst ho
    simpa [HolderState.wrapOk] using hw
  | copy j =>
    simp only [HolderState.step] at hs
    split at hs <;> simp only [Option.some.injEq, reduceCtorEq] at hs
    rename_i p hj
    subst hs
    refine noDead_assign hn (by simp) fun o ho => ?_
    subst ho
    simpa using hal o (held_pos hj)
  | assign i j =>
    simp only [HolderState.step] at hs
    split at hs <;> simp only [Option.some.injEq, reduceCtorEq] at hs
    rename_i cur p hi hj
    subst hs
    refine noDead_assign hn (fun o ho => ?_) fun o ho => ?_
    · subst ho
      exact hal o (held_pos hi)
    · subst ho
      split
      · rename_i hc
        subst hc
        have := held_two hself hi hj
        have := hb o
        omega
      · exact hal o (held_pos hj)
  | destroy i =>
    simp only [HolderState.step] at hs
    split at hs <;> simp only [Option.some.injEq, reduceCtorEq] at hs
    rename_i cur hi
    subst hs
    refine noDead_assign (i := i) hn (fun o ho => ?_) (by simp)
    subst ho
    exact hal o (held_pos hi)
  | load i q =>
    simp only [HolderState.step] at hs
    split at hs <;> simp only [Option.some.injEq, reduceCtorEq] at hs
    subst hs
    exact fact q
  | raw q =>
    simp only [HolderState.step, Option.some.injEq] at hs
    subst hs
    exact fact q

theorem noDead_run {ops : List HolderOp} : ∀ {s s' : HolderState} {raw : Nat → Nat}, Balanced s raw → NoDeadCalls s.log →
    s.Along (fun s op => s.loadOk op ∧ s.wrapOk op ∧ op.notSelf) ops → s.run ops = some s' → NoDeadCalls s'.log := by
  induction ops with
  | nil =>
    intro s s' raw _ hn _ hr
    simp only [HolderState.run, Option.some.injEq] at hr
    subst hr
    exact hn
  | cons op ops ih =>
    intro s s' raw hb hn ha hr
    simp only [HolderState.run, Option.bind_eq_some_iff] at hr
    obtain ⟨s1, h1, h2⟩ := hr
    exact ih (balanced_step hb ha.1.1 h1) (noDead_step hb hn ha.1.2.1 ha.1.2.2 h1) (ha.2 s1 h1) h2

end Aux

/-- After any history of constructions, copies, assignments (also to itself), destructions and factory calls
in which holders are filled through `void**` only while empty, every object has been attached exactly as
often as it has been detached, plus once per live holder pointing to it, plus once per reference the program
took into a plain pointer. -/
theorem C33_balanced {ops : List HolderOp} {s : HolderState} (hload : HolderState.Along HolderState.loadOk {} ops)
    (hrun : HolderState.run {} ops = some s) (o : Nat) :
    attaches o s.log = detaches o s.log + s.held o + rawRefs o ops := by
  have h0 : Balanced {} (fun _ => 0) := fun o => by simp [refs, attaches, detaches, HolderState.held]
  have h := balanced_run h0 hload hrun o
  simp only [refs] at h
  omega

/-- When all holders are gone and the program took no reference of its own, every reference was given back. -/
theorem C33_all_released {ops : List HolderOp} {s : HolderState} (hload : HolderState.Along HolderState.loadOk {} ops)
    (hrun : HolderState.run {} ops = some s) (hgone : ∀ h ∈ s.holders, h = none) (hraw : ∀ o, HolderOp.raw o ∉ ops) (o : Nat) :
    attaches o s.log = detaches o s.log := by
  have h := C33_balanced hload hrun o
  have h1 : s.held o = 0 := List.count_eq_zero.2 fun hm => by simpa using hgone _ hm
  have h2 : rawRefs o ops = 0 := List.count_eq_zero.2 (hraw o)
  omega

/-- No object is used by a holder after its last reference was given back, provided no holder is assigned to
itself.  Missing for the full claim: self-assignment, which detaches before it attaches
(`C33_counterexample`). -/
theorem C33_no_use_after_release_partial {ops : List HolderOp} {s : HolderState}
    (hok : HolderState.Along (fun s op => s.loadOk op ∧ s.wrapOk op ∧ op.notSelf) {} ops)
    (hrun : HolderState.run {} ops = some s) : NoDeadCalls s.log :=
  noDead_run (raw := fun _ => 0) (fun o => by simp [refs, attaches, detaches, HolderState.held])
    (fun l1 c l2 o h _ => by simp at h) hok hrun

/-- Assigning a holder to itself when it is the only owner calls `Attach` on a released object. -/
theorem C33_counterexample : ∃ ops s, HolderState.Along (fun s op => s.loadOk op ∧ s.wrapOk op) {} ops ∧
    HolderState.run {} ops = some s ∧ ¬ NoDeadCalls s.log := by
  refine ⟨[.fresh, .load 0 7, .assign 0 0], ⟨[some (some 7)], [.factory 7, .detach 7, .attach 7]⟩, ?_, by decide, ?_⟩
  · simp [HolderState.Along, HolderState.loadOk, HolderState.wrapOk, HolderState.step]
  · intro h
    have := h [.factory 7, .detach 7] (.attach 7) [] 7 rfl (.inl rfl)
    revert this
    decide

/-- Filling a holder that is not empty through `void**` loses a reference: the proviso is needed. -/
theorem C33_load_proviso_needed : ∃ ops s, HolderState.run {} ops = some s ∧ (∀ o, HolderOp.raw o ∉ ops) ∧
    (∀ h ∈ s.holders, h = none) ∧ attaches 7 s.log ≠ detaches 7 s.log :=
  ⟨[.fresh, .load 0 7, .load 0 8, .destroy 0], ⟨[none], [.factory 7, .factory 8, .detach 8]⟩, by decide, by simp, by simp, by decide⟩

/-- The hypotheses are met by a history with copies, assignments and destructions. -/
example : ∃ ops s, HolderState.Along (fun s op => s.loadOk op ∧ s.wrapOk op ∧ op.notSelf) {} ops ∧
    HolderState.run {} ops = some s ∧ attaches 7 s.log = 4 ∧ detaches 7 s.log = 3 ∧ s.held 7 = 1 := by
  refine ⟨[.fresh, .load 0 7, .copy 0, .assign 0 1, .wrap (some 7), .destroy 0, .destroy 1],
    ⟨[none, none, some (some 7)], [.factory 7, .attach 7, .detach 7, .attach 7, .attach 7, .detach 7, .detach 7]⟩, ?_, by decide, by decide, by decide, by decide⟩
  simp [HolderState.Along, HolderState.loadOk, HolderState.wrapOk, HolderOp.notSelf, HolderState.step, HolderState.assign,
    attachCall, detachCall, refs, attaches, detaches]

end Libmorph
