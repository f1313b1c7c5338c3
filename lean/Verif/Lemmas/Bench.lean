import Verif.Model.Bench
import Verif.Spec.Bench
import Verif.Lemmas.Text
/-
The words of a text.
-/
namespace Libmorph
open Libmorph.Spec

theorem isAlphaExt_iff {c : Byte} (hc : c < 256) : isAlphaExt c = true ↔ TextLetter c := by
  have : ∀ c < 256, (isAlphaExt c = true) = (((65 ≤ c ∧ c ≤ 90) ∨ (97 ≤ c ∧ c ≤ 122) ∨ 128 ≤ c) : Prop) := by
    intro c hc
    have : ∀ c < 256, isAlphaExt c = decide ((65 ≤ c ∧ c ≤ 90) ∨ (97 ≤ c ∧ c ≤ 122) ∨ 128 ≤ c) := by decide +kernel
    rw [this c hc, decide_eq_true_eq]
  rw [this c hc]; rfl

/-- How a text falls apart: other characters, a word, and a rest that does not go on with it. -/
theorem wordAt_split {a u r : List Nat} (ha : ∀ c ∈ a, ¬ TextLetter c) (hu : u ≠ []) (hul : ∀ c ∈ u, TextLetter c)
    (hr : ∀ c, r.head? = some c → ¬ TextLetter c) (x w : List Nat) :
    WordAt (a ++ u ++ r) x w ↔ (x = a ∧ w = u ∧ 2 ≤ u.length) ∨ ∃ x', x = a ++ u ++ x' ∧ WordAt r x' w := by
  constructor
  · rintro ⟨⟨y, hy, hyh⟩, hx, h2, hw⟩
    have hwne : w ≠ [] := by intro h; simp [h] at h2
    obtain ⟨c, w', rfl⟩ := List.exists_cons_of_ne_nil hwne
    have hc := hw c (by simp)
    have hy' : a ++ (u ++ r) = x ++ (c :: w' ++ y) := by simpa using hy
    rcases List.append_eq_append_iff.1 hy' with ⟨z, hz1, hz2⟩ | ⟨z, hz1, hz2⟩
    · -- x = a ++ z
      rcases List.append_eq_append_iff.1 hz2 with ⟨z', e1, e2⟩ | ⟨z', e1, e2⟩
      · -- z = u ++ z'
        right
        have hz' : z' ≠ [] := by
          rintro rfl
          have : r.head? = some c := by rw [e2]; simp
          exact hr c this hc
        refine ⟨z', by rw [hz1, e1]; simp, ⟨y, by rw [e2]; simp, hyh⟩, fun d hd => hx d ?_, h2, hw⟩
        rw [hz1, e1, List.getLast?_append, List.getLast?_append, hd]; rfl
      · -- u = z ++ z'
        left
        have hz : z = [] := by
          by_contra hne
          have hl : z.getLast? = some (z.getLast hne) := List.getLast?_eq_getLast_of_ne_nil hne
          refine hx (z.getLast hne) (by rw [hz1, List.getLast?_append, hl]; rfl) (hul _ ?_)
          rw [e1]; exact List.mem_append_left _ (List.getLast_mem hne)
        subst hz
        simp only [List.nil_append] at e1
        subst e1
        have key : c :: w' = u := by
          have e3 : (c :: w') ++ y = u ++ r := by simpa using e2
          rcases List.append_eq_append_iff.1 e3 with ⟨q, q1, q2⟩ | ⟨q, q1, q2⟩
          · cases q with
            | nil => simpa using q1.symm
            | cons d q =>
              exact absurd (hul d (by rw [q1]; simp)) (hyh d (by rw [q2]; simp))
          · cases q with
            | nil => simpa using q1
            | cons d q =>
              exact absurd (hw d (by rw [q1]; simp)) (hr d (by rw [q2]; simp))
        exact ⟨by rw [hz1]; simp, key, by rw [← key]; exact h2⟩
    · -- a = x ++ z
      cases z with
      | nil =>
        left
        simp only [List.append_nil, List.nil_append] at hz1 hz2
        have key : c :: w' = u := by
          have e3 : (c :: w') ++ y = u ++ r := by simpa using hz2
          rcases List.append_eq_append_iff.1 e3 with ⟨q, q1, q2⟩ | ⟨q, q1, q2⟩
          · cases q with
            | nil => simpa using q1.symm
            | cons d q =>
              exact absurd (hul d (by rw [q1]; simp)) (hyh d (by rw [q2]; simp))
          · cases q with
            | nil => simpa using q1
            | cons d q =>
              exact absurd (hw d (by rw [q1]; simp)) (hr d (by rw [q2]; simp))
        exact ⟨hz1.symm, key, by rw [← key]; exact h2⟩
      | cons d z =>
        have : d = c := by simpa using congrArg List.head? hz2.symm
        exact absurd hc (this ▸ ha d (by rw [hz1]; simp))
  · rintro (⟨rfl, rfl, h2⟩ | ⟨x', rfl, ⟨⟨y, hy, hyh⟩, hx, h2, hw⟩⟩)
    · refine ⟨⟨r, rfl, hr⟩, fun c hc => ha c (List.mem_of_getLast? hc), h2, hul⟩
    · refine ⟨⟨y, by rw [hy]; simp, hyh⟩, fun c hc => ?_, h2, hw⟩
      rw [List.getLast?_append] at hc
      cases hx' : x'.getLast? with
      | some d =>
        rw [hx'] at hc
        exact hx c (by rw [hx']; exact hc)
      | none =>
        rw [List.getLast?_eq_none_iff] at hx'
        subst hx'
        have hwne : w ≠ [] := by intro h; simp [h] at h2
        obtain ⟨d, w', rfl⟩ := List.exists_cons_of_ne_nil hwne
        exact absurd (hw d (by simp)) (hr d (by rw [hy]; simp))

theorem takeWhile_pass {α} (p : α → Bool) (l : List α) : ∀ c ∈ l.takeWhile p, p c = true := by
  induction l with
  | nil => simp
  | cons a l ih =>
    intro c hc
    rw [List.takeWhile_cons] at hc
    split at hc
    · rcases List.mem_cons.1 hc with rfl | h
      · assumption
      · exact ih c h
    · cases hc

theorem dropWhile_first {α} (p : α → Bool) (l : List α) (c : α) (h : (l.dropWhile p).head? = some c) : p c = false := by
  induction l with
  | nil => simp at h
  | cons a l ih =>
    rw [List.dropWhile_cons] at h
    split at h
    · exact ih h
    · simp only [List.head?_cons, Option.some.injEq] at h
      subst h
      simpa using ‹¬ p a = true›

theorem getWordsN_eq (n : Nat) : ∀ (s : List Nat), (∀ c ∈ s, c < 256) → s.length < n →
    ∃ ps : List (List Nat × List Nat), getWordsN n s = ps.map Prod.snd ∧ (ps.Pairwise fun p q => p.1.length + p.2.length < q.1.length) ∧
      ∀ x w, (x, w) ∈ ps ↔ WordAt s x w := by
  induction n with
  | zero => intro s _ h; omega
  | succ n ih =>
    intro s hs hn
    have hsplit := List.takeWhile_append_dropWhile (p := fun c => !isAlphaExt c) (l := s)
    have ha : ∀ c ∈ s.takeWhile (fun c => !isAlphaExt c), ¬ TextLetter c := by
      intro c hc hl
      have := takeWhile_pass _ _ c hc
      rw [(isAlphaExt_iff (hs c ((List.takeWhile_sublist _).subset hc))).2 hl] at this
      cases this
    rw [getWordsN]
    generalize hd : s.dropWhile (fun c => !isAlphaExt c) = d at hsplit
    generalize s.takeWhile (fun c => !isAlphaExt c) = a at hsplit ha
    cases d with
    | nil =>
      refine ⟨[], rfl, .nil, fun x w => ⟨fun h => absurd h (by simp), fun h => ?_⟩⟩
      obtain ⟨⟨y, hy, -⟩, -, h2, hw⟩ := h
      have : w ≠ [] := by intro h; simp [h] at h2
      obtain ⟨c, w', rfl⟩ := List.exists_cons_of_ne_nil this
      rw [List.append_nil] at hsplit
      exact absurd (hw c (by simp)) (ha c (by rw [hsplit, hy]; simp))
    | cons c t =>
      have hc : isAlphaExt c = true := by
        have := dropWhile_first _ _ c (by rw [hd]; rfl)
        simpa using this
      have hmem : ∀ b ∈ c :: t, b < 256 := fun b hb => hs b (by rw [← hsplit]; exact List.mem_append_right _ hb)
      have hu : ∀ b ∈ c :: t.takeWhile isAlphaExt, TextLetter b := by
        intro b hb
        rcases List.mem_cons.1 hb with rfl | hb
        · exact (isAlphaExt_iff (hmem b (by simp))).1 hc
        · exact (isAlphaExt_iff (hmem b (List.mem_cons_of_mem _ ((List.takeWhile_sublist _).subset hb)))).1 (takeWhile_pass _ _ b hb)
      have hr : ∀ b, (t.dropWhile isAlphaExt).head? = some b → ¬ TextLetter b := by
        intro b hb hl
        have h1 := dropWhile_first _ _ b hb
        have h2 : b ∈ t.dropWhile isAlphaExt := List.mem_of_head? hb
        rw [(isAlphaExt_iff (hmem b (List.mem_cons_of_mem _ ((List.dropWhile_sublist _).subset h2)))).2 hl] at h1
        cases h1
      have hs' : s = a ++ (c :: t.takeWhile isAlphaExt) ++ t.dropWhile isAlphaExt := by
        rw [← hsplit, List.append_assoc, List.cons_append, List.takeWhile_append_dropWhile]
      obtain ⟨ps, h1, h2, h3⟩ := ih (t.dropWhile isAlphaExt) (fun b hb => hmem b (List.mem_cons_of_mem _ ((List.dropWhile_sublist _).subset hb))) (by
        have h1 := congrArg List.length hsplit
        have h2 := (List.dropWhile_sublist (p := isAlphaExt) (l := t)).length_le
        simp only [List.length_append, List.length_cons] at h1
        omega)
      let u := c :: t.takeWhile isAlphaExt
      let qs := ps.map fun p => (a ++ u ++ p.1, p.2)
      have hq1 : qs.map Prod.snd = ps.map Prod.snd := by simp [qs, Function.comp_def]
      have hq2 : qs.Pairwise fun p q => p.1.length + p.2.length < q.1.length := by
        refine List.pairwise_map.2 (h2.imp ?_)
        intro p q h
        simp only [List.length_append]; omega
      have hq3 : ∀ x w, (x, w) ∈ qs ↔ ∃ x', x = a ++ u ++ x' ∧ WordAt (t.dropWhile isAlphaExt) x' w := by
        intro x w
        simp only [qs, List.mem_map, Prod.mk.injEq]
        constructor
        · rintro ⟨⟨p1, p2⟩, hp, rfl, rfl⟩; exact ⟨p1, rfl, (h3 _ _).1 hp⟩
        · rintro ⟨x', rfl, hx'⟩; exact ⟨(x', w), (h3 _ _).2 hx', rfl, rfl⟩
      have hword : ∀ x w, WordAt s x w ↔ (x = a ∧ w = u ∧ 2 ≤ u.length) ∨ (x, w) ∈ qs := by
        intro x w
        rw [hq3, hs']
        exact wordAt_split ha (by simp [u]) hu hr x w
      by_cases hlen : u.length > 1
      · refine ⟨(a, u) :: qs, ?_, ?_, ?_⟩
        · show (if u.length > 1 then u :: getWordsN n (t.dropWhile isAlphaExt) else _) = _
          rw [if_pos hlen, h1, List.map_cons, hq1]
        · refine List.pairwise_cons.2 ⟨?_, hq2⟩
          rintro ⟨x, w⟩ hx
          obtain ⟨x', rfl, hx'⟩ := (hq3 x w).1 hx
          have : x' ≠ [] := by
            rintro rfl
            obtain ⟨⟨y, hy, -⟩, -, k2, kw⟩ := hx'
            have hwne : w ≠ [] := by intro h; simp [h] at k2
            obtain ⟨d, w', rfl⟩ := List.exists_cons_of_ne_nil hwne
            exact hr d (by rw [hy]; simp) (kw d (by simp))
          have := List.length_pos_iff.2 this
          simp only [List.length_append]; omega
        · intro x w
          rw [hword, List.mem_cons, Prod.mk.injEq]
          constructor
          · rintro (⟨rfl, rfl⟩ | h)
            · exact .inl ⟨rfl, rfl, hlen⟩
            · exact .inr h
          · rintro (⟨rfl, rfl, -⟩ | h)
            · exact .inl ⟨rfl, rfl⟩
            · exact .inr h
      · refine ⟨qs, ?_, hq2, ?_⟩
        · show (if u.length > 1 then u :: getWordsN n (t.dropWhile isAlphaExt) else _) = _
          rw [if_neg hlen, h1, hq1]
        · intro x w
          rw [hword]
          exact ⟨.inr, fun h => h.resolve_left fun k => hlen k.2.2⟩

/-! ### Counting -/

theorem benchPass_eq {call : List Lemm → List Byte → Option Int} {stack : Nat → List Lemm} {known : List Byte → Bool} :
    ∀ (ws : List (List Byte)) (k v : Nat), (∀ w ∈ ws, ∀ k, ∃ r, call (stack k) w = some r ∧ (r ≠ 0 ↔ known w = true)) → v < 2 ^ 32 →
    benchPass call stack ws (k, v) = some (k + ws.length, (v + (ws.filter known).length) % 2 ^ 32) := by
  intro ws
  induction ws with
  | nil => intro k v _ hv; simp [benchPass, Nat.mod_eq_of_lt hv]
  | cons w ws ih =>
    intro k v h hv
    obtain ⟨r, hr, hk⟩ := h w (by simp) k
    simp only [benchPass, hr, bind, Option.bind_some]
    by_cases h0 : r ≠ 0
    · rw [if_pos h0, ih _ _ (fun w hw => h w (by simp [hw])) (Nat.mod_lt _ (by decide)), List.filter_cons_of_pos (hk.1 h0)]
      congr 2
      · simp; omega
      · rw [Nat.mod_add_mod, List.length_cons]; congr 1; omega
    · have : known w = false := by
        cases hw : known w
        · rfl
        · exact absurd (hk.2 hw) h0
      rw [if_neg h0, ih _ _ (fun w hw => h w (by simp [hw])) hv, List.filter_cons_of_neg (by simp [this])]
      congr 2
      simp; omega

theorem benchPasses_eq {call : List Lemm → List Byte → Option Int} {stack : Nat → List Lemm} {known : List Byte → Bool} (ws : List (List Byte))
    (h : ∀ w ∈ ws, ∀ k, ∃ r, call (stack k) w = some r ∧ (r ≠ 0 ↔ known w = true)) :
    ∀ (n k v t : Nat), v < 2 ^ 32 → t < 2 ^ 32 →
    benchPasses call stack ws n (k, v, t) = some ((t + n * ws.length) % 2 ^ 32, (v + n * (ws.filter known).length) % 2 ^ 32) := by
  intro n
  induction n with
  | zero => intro k v t hv ht; simp [benchPasses, Nat.mod_eq_of_lt hv, Nat.mod_eq_of_lt ht]
  | succ n ih =>
    intro k v t hv ht
    simp only [benchPasses, benchPass_eq ws k v h hv, bind, Option.bind_some]
    rw [ih _ _ _ (Nat.mod_lt _ (by decide)) (Nat.mod_lt _ (by decide)), Nat.mod_add_mod, Nat.mod_add_mod]
    congr 3 <;> (rw [Nat.succ_mul]; omega)

end Libmorph
