import Verif.Lemmas.WildList
import Verif.Lemmas.EngScan
import Verif.Spec.EngWild
import Mathlib.Data.List.Chain
/-
Wildcard search in the English analyser.
-/
namespace Libmorph

/-! ### Registration -/

/-- `engReg` on an event. -/
def engRegE (ev : Nat × StrMatch) (s : MatchSt) : Option MatchSt :=
  let s := s.enter ev.1
  if ev.2 ∈ s.amatch then some s else s.push 256 (256 * 96) ev.2.text ev.2.id

theorem engReg_eq (id : Nat) (text : List Byte) (g : Gram) (s : MatchSt) :
    engReg id text g s = (engRegE (id, ⟨text, g.idForm⟩) s).map fun s => (0, s) := by
  simp only [engReg, engRegE]
  have h : ((s.enter id).amatch.any fun m => m.id == g.idForm && m.text == text) = decide ((⟨text, g.idForm⟩ : StrMatch) ∈ (s.enter id).amatch) := by
    rw [Bool.eq_iff_iff]
    simp only [List.any_eq_true, Bool.and_eq_true, beq_iff_eq, decide_eq_true_eq]
    constructor
    · rintro ⟨⟨t, i⟩, h1, h2, h3⟩
      simp only at h2 h3
      subst h2 h3
      exact h1
    · intro h1
      exact ⟨_, h1, rfl, rfl⟩
  rw [h]
  by_cases hm : (⟨text, g.idForm⟩ : StrMatch) ∈ (s.enter id).amatch
  · simp [hm]
  · simp only [hm, decide_false, Bool.false_eq_true, if_false, bind]
    cases (s.enter id).push 256 (256 * 96) text g.idForm <;> rfl

/-- The calls when the search is over. -/
def MatchSt.all (s : MatchSt) : List (Nat × List StrMatch) :=
  if s.lastId ≠ 0 then s.calls ++ [(s.lastId, s.amatch)] else s.calls

structure RegInv (P : List (Nat × StrMatch)) (s : MatchSt) : Prop where
  start : s.lastId = 0 → P = [] ∧ s.calls = []
  used : s.lastId ≠ 0 → ∃ u, s.used = some u ∧ u ≤ s.amatch.length * 48
  cur : ∀ m ∈ s.amatch, (s.lastId, m) ∈ P
  calls : WildCalls (fun id m => (id, m) ∈ P) s.all

theorem regInv_init : RegInv [] {} :=
  ⟨fun _ => ⟨rfl, rfl⟩, fun h => absurd rfl h, by simp, ⟨by simp [MatchSt.all], by simp [MatchSt.all], by simp [MatchSt.all], by simp [MatchSt.all]⟩⟩

/-- The lexemes of the calls when one more is met: a call is opened unless the last one is for this lexeme. -/
def visitIds (ids : List Nat) (id : Nat) : List Nat := if ids.getLast? = some id then ids else ids ++ [id]

theorem regInv_step' {P : List (Nat × StrMatch)} {s : MatchSt} (h : RegInv P s) (id : Nat) (m : StrMatch) (hid : id ≠ 0)
    (hm : m.text.length < 48) (F : List StrMatch) (hF : F.length ≤ 256) (hsub : ∀ m', (id, m') ∈ P ++ [(id, m)] → m' ∈ F) :
    ∃ s', engRegE (id, m) s = some s' ∧ RegInv (P ++ [(id, m)]) s' := by
  by_cases hl : id = s.lastId
  · have hl0 : s.lastId ≠ 0 := hl ▸ hid
    have henter : s.enter id = s := by simp [MatchSt.enter, hl]
    have hall : s.all = s.calls ++ [(id, s.amatch)] := by rw [MatchSt.all, if_pos hl0, hl]
    by_cases hmem : m ∈ s.amatch
    · refine ⟨s, by simp [engRegE, henter, hmem], ?_⟩
      have hin : (id, m) ∈ P := by rw [hl]; exact h.cur m hmem
      have hP : ∀ x, x ∈ P ++ [(id, m)] ↔ x ∈ P := by
        intro x; simp only [List.mem_append, List.mem_singleton]
        exact ⟨fun hx => hx.elim (fun h => h) (fun h => h ▸ hin), Or.inl⟩
      exact ⟨fun h0 => absurd h0 hl0, h.used, fun x hx => (hP _).2 (h.cur x hx),
        ⟨fun i x => by rw [h.calls.mem, hP], h.calls.nonempty, h.calls.nodup, h.calls.change⟩⟩
    · obtain ⟨u, hu, hul⟩ := h.used hl0
      have hnd : s.amatch.Nodup := h.calls.nodup (id, s.amatch) (by simp [hall])
      have hlen : (m :: s.amatch).length ≤ F.length := by
        refine List.Subperm.length_le (List.subperm_of_subset (List.nodup_cons.2 ⟨hmem, hnd⟩) ?_)
        intro x hx
        rcases List.mem_cons.1 hx with rfl | hx
        · exact hsub x (by simp)
        · have := h.cur x hx
          rw [← hl] at this
          exact hsub x (by simp [this])
      simp only [List.length_cons] at hlen
      have hpush : s.push 256 (256 * 96) m.text m.id = some { s with amatch := s.amatch ++ [m], used := some (u + m.text.length + 1) } := by
        simp only [MatchSt.push, hu, bind, Option.bind_some]
        rw [if_pos ⟨by omega, by omega⟩]; rfl
      refine ⟨_, by simp only [engRegE, henter, if_neg hmem]; exact hpush, ?_⟩
      have hall' : MatchSt.all { s with amatch := s.amatch ++ [m], used := some (u + m.text.length + 1) } = s.calls ++ [(id, s.amatch ++ [m])] := by
        simp only [MatchSt.all]; rw [if_pos hl0, hl]
      refine ⟨fun h0 => absurd h0 hl0, fun _ => ⟨_, rfl, by simp only [List.length_append, List.length_singleton]; omega⟩, ?_, ?_⟩
      · intro x hx
        simp only [List.mem_append, List.mem_singleton] at hx ⊢
        rcases hx with hx | rfl
        · exact Or.inl (h.cur x hx)
        · right; rw [hl]
      · rw [hall']
        obtain ⟨c1, c2, c3, c4⟩ := h.calls
        rw [hall] at c1 c2 c3 c4
        refine ⟨?_, ?_, ?_, ?_⟩
        · intro i x
          have := c1 i x
          simp only [List.mem_append, List.mem_singleton, Prod.mk.injEq] at this ⊢
          rw [← this]
          constructor
          · rintro ⟨c, hc | rfl, h1, h2⟩
            · exact Or.inl ⟨c, Or.inl hc, h1, h2⟩
            · simp only at h1
              rcases List.mem_append.1 h2 with h2 | h2
              · exact Or.inl ⟨(id, s.amatch), Or.inr rfl, h1, h2⟩
              · right; exact ⟨h1.symm, by simpa using h2⟩
          · rintro (⟨c, hc | rfl, h1, h2⟩ | ⟨h1, h2⟩)
            · exact ⟨c, Or.inl hc, h1, h2⟩
            · exact ⟨_, Or.inr rfl, h1, by simp only at h2; simp [h2]⟩
            · exact ⟨_, Or.inr rfl, h1.symm, by simp [h2]⟩
        · intro c hc
          rcases List.mem_append.1 hc with hc | hc
          · exact c2 c (by simp [hc])
          · simp only [List.mem_singleton] at hc; subst hc; simp
        · intro c hc
          rcases List.mem_append.1 hc with hc | hc
          · exact c3 c (by simp [hc])
          · simp only [List.mem_singleton] at hc; subst hc
            exact List.nodup_append.2 ⟨hnd, by simp, by simpa using fun a ha (h : a = m) => hmem (h ▸ ha)⟩
        · rw [List.isChain_append] at c4 ⊢
          exact ⟨c4.1, by simp, by simpa using c4.2.2⟩
  · have henter : s.enter id = ⟨s.all, id, [], some 0⟩ := by
      simp only [MatchSt.enter, MatchSt.all]; rw [if_pos hl]
    have hpush : (s.enter id).push 256 (256 * 96) m.text m.id = some ⟨s.all, id, [m], some (m.text.length + 1)⟩ := by
      simp only [henter, MatchSt.push, bind, Option.bind_some]
      rw [if_pos ⟨by simp, by omega⟩]
      simp
    refine ⟨⟨s.all, id, [m], some (m.text.length + 1)⟩, ?_, ?_⟩
    · simp only [engRegE]
      rw [if_neg (by simp [henter])]
      exact hpush
    · have hall' : MatchSt.all ⟨s.all, id, [m], some (m.text.length + 1)⟩ = s.all ++ [(id, [m])] := by
        rw [MatchSt.all]; exact if_pos hid
      refine ⟨fun h0 => absurd h0 hid, fun _ => ⟨_, rfl, by simp only [List.length_singleton]; omega⟩, by simp, ?_⟩
      rw [hall']
      obtain ⟨c1, c2, c3, c4⟩ := h.calls
      refine ⟨?_, ?_, ?_, ?_⟩
      · intro i x
        have := c1 i x
        simp only [List.mem_append, List.mem_singleton, Prod.mk.injEq] at this ⊢
        rw [← this]
        constructor
        · rintro ⟨c, hc | rfl, h1, h2⟩
          · exact Or.inl ⟨c, hc, h1, h2⟩
          · right; exact ⟨h1.symm, by simpa using h2⟩
        · rintro (⟨c, hc, h1, h2⟩ | ⟨h1, h2⟩)
          · exact ⟨c, Or.inl hc, h1, h2⟩
          · exact ⟨_, Or.inr rfl, h1.symm, by simp [h2]⟩
      · intro c hc
        rcases List.mem_append.1 hc with hc | hc
        · exact c2 c hc
        · simp only [List.mem_singleton] at hc; subst hc; simp
      · intro c hc
        rcases List.mem_append.1 hc with hc | hc
        · exact c3 c hc
        · simp only [List.mem_singleton] at hc; subst hc; simp
      · rw [List.isChain_append]
        refine ⟨c4, by simp, ?_⟩
        intro x hx y hy
        simp only [List.head?_cons, Option.mem_def, Option.some.injEq] at hy
        subst hy
        by_cases h0 : s.lastId = 0
        · have := h.start h0
          simp only [MatchSt.all, if_neg (fun hh : s.lastId ≠ 0 => hh h0), this.2] at hx
          simp at hx
        · simp only [MatchSt.all] at hx
          rw [if_pos h0] at hx
          simp only [List.getLast?_concat, Option.mem_def, Option.some.injEq] at hx
          subst hx
          exact fun hh => hl hh.symm

theorem regInv_step {P : List (Nat × StrMatch)} {s : MatchSt} (h : RegInv P s) (id : Nat) (m : StrMatch) (hid : id ≠ 0)
    (hm : m.text.length < 48) (F : List StrMatch) (hF : F.length ≤ 256) (hsub : ∀ m', (id, m') ∈ P ++ [(id, m)] → m' ∈ F) :
    ∃ s', engRegE (id, m) s = some s' ∧ RegInv (P ++ [(id, m)]) s' ∧ s'.all.map Prod.fst = visitIds (s.all.map Prod.fst) id := by
  obtain ⟨s', h1, h2⟩ := regInv_step' h id m hid hm F hF hsub
  refine ⟨s', h1, h2, ?_⟩
  by_cases hl : id = s.lastId
  · have hl0 : s.lastId ≠ 0 := hl ▸ hid
    have henter : s.enter id = s := by simp [MatchSt.enter, hl]
    have hs : s'.calls = s.calls ∧ s'.lastId = s.lastId := by
      simp only [engRegE, henter] at h1
      split at h1
      · simp only [Option.some.injEq] at h1; subst h1; exact ⟨rfl, rfl⟩
      · simp only [MatchSt.push, bind, Option.bind_eq_some_iff] at h1
        obtain ⟨u, -, h1⟩ := h1
        split at h1
        · simp only [pure, Option.some.injEq] at h1; subst h1; exact ⟨rfl, rfl⟩
        · simp at h1
    have e1 : s.all = s.calls ++ [(s.lastId, s.amatch)] := if_pos hl0
    have e2 : s'.all = s.calls ++ [(s.lastId, s'.amatch)] := by rw [MatchSt.all, hs.1, hs.2]; exact if_pos hl0
    rw [e1, e2, visitIds]
    simp [hl]
  · have hs : s'.calls = s.all ∧ s'.lastId = id := by
      simp only [engRegE] at h1
      have henter : s.enter id = ⟨s.all, id, [], some 0⟩ := by
        simp only [MatchSt.enter, MatchSt.all]; rw [if_pos hl]
      rw [henter] at h1
      simp only [List.not_mem_nil, if_false, MatchSt.push, bind, Option.bind_some] at h1
      split at h1
      · simp only [pure, Option.some.injEq] at h1; subst h1; exact ⟨rfl, rfl⟩
      · simp at h1
    have e2 : s'.all = s.all ++ [(id, s'.amatch)] := by rw [MatchSt.all, hs.1, hs.2]; exact if_pos hid
    have e3 : (s.all.map Prod.fst).getLast? ≠ some id := by
      by_cases h0 : s.lastId = 0
      · simp [MatchSt.all, h0, (h.start h0).2]
      · have e1 : s.all = s.calls ++ [(s.lastId, s.amatch)] := if_pos h0
        rw [e1]; simpa using fun hh : s.lastId = id => hl hh.symm
    rw [e2, visitIds, if_neg e3]
    simp

theorem reg_all {E : List (Nat × StrMatch)} (hid : ∀ e ∈ E, e.1 ≠ 0) (hm : ∀ e ∈ E, e.2.text.length < 48)
    (F : Nat → List StrMatch) (hF : ∀ id, (F id).length ≤ 256) (hsub : ∀ e ∈ E, e.2 ∈ F e.1) :
    ∃ s, E.foldlM (fun s e => engRegE e s) ({} : MatchSt) = some s ∧ RegInv E s ∧
      s.all.map Prod.fst = (E.map Prod.fst).foldl visitIds [] := by
  have : ∀ (Q P : List (Nat × StrMatch)) (s : MatchSt), P ++ Q = E → RegInv P s →
      ∃ s', Q.foldlM (fun s e => engRegE e s) s = some s' ∧ RegInv E s' ∧
        s'.all.map Prod.fst = (Q.map Prod.fst).foldl visitIds (s.all.map Prod.fst) := by
    intro Q
    induction Q with
    | nil => intro P s hPQ h; exact ⟨s, rfl, by simpa [← hPQ] using h, rfl⟩
    | cons ev Q ih =>
      intro P s hPQ h
      have hev : ev ∈ E := by rw [← hPQ]; simp
      obtain ⟨s', h1, h2, h5⟩ := regInv_step h ev.1 ev.2 (hid ev hev) (hm ev hev) (F ev.1) (hF _) (by
        intro m' hm'
        have : (ev.1, m') ∈ E := by
          rw [← hPQ]
          rcases List.mem_append.1 hm' with h | h
          · simp [h]
          · simp only [List.mem_singleton] at h
            simp [h]
        exact hsub _ this)
      obtain ⟨s'', h3, h4, h6⟩ := ih (P ++ [ev]) s' (by simpa using hPQ) h2
      refine ⟨s'', ?_, h4, by rw [h6, h5]; rfl⟩
      rw [List.foldlM_cons]
      simp only [bind, h1, Option.bind_some]
      exact h3
  exact this E [] {} rfl regInv_init

theorem finish_eq (client : List (Nat × List StrMatch) → Int) {E : List (Nat × StrMatch)} {s : MatchSt} (h : RegInv E s) :
    s.finish client 0 = (if s.all = [] then 0 else client s.all, s.all) := by
  simp only [MatchSt.finish, MatchSt.all, ne_eq, not_true_eq_false, if_false]
  by_cases h0 : s.lastId = 0
  · simp [h0, (h.start h0).2]
  · simp [h0]

end Libmorph
