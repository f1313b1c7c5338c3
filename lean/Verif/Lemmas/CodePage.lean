import Verif.Spec.CodePage
import Verif.Lemmas.Visits
import Verif.Lemmas.EngForms
import Verif.Lemmas.RusForms
/-
The dictionary in another code page follows the dictionary in code page 1251.
-/
namespace Libmorph

variable {P : Page} {enc : Byte → List Byte} {known : Byte → Prop}

theorem inPage_append (p q : List Byte) : inPage enc (p ++ q) = inPage enc p ++ inPage enc q := by simp [inPage]

theorem Page.Ok.inPage_zero (h : P.Ok enc known) : inPage enc [0] = [0] := by simp [inPage, h.zero]

theorem Page.Ok.length_le (h : P.Ok enc known) (p : List Byte) : p.length ≤ (inPage enc p).length := by
  induction p with
  | nil => simp
  | cons b p ih =>
    have : 1 ≤ (enc b).length := by
      by_cases hb : b = 0
      · subst hb; simp [h.zero]
      · have := (h.code b hb).1
        cases hx : enc b with
        | nil => exact absurd hx this
        | cons => simp
    simp only [inPage, List.flatMap_cons, List.length_append, List.length_cons] at ih ⊢
    omega

theorem Page.Ok.packed_le (h : P.Ok enc known) (ts : List (List Byte)) : (packed ts).length ≤ (packed (ts.map (inPage enc))).length := by
  induction ts with
  | nil => simp [packed]
  | cons t ts ih =>
    have := h.length_le t
    simp only [List.map_cons, packed_cons, List.length_append, List.length_cons]
    omega

/-- A buffer that has been filled with `x` by way of a code page. -/
structure Coder.HoldsIn (c : Coder) (B x : List Byte) : Prop where
  pos : c.pos = x.length
  room : x.length ≤ B.length
  buf : c.buf = some (if x = [] then B else (x ++ 0 :: B.drop (x.length + 1)).take B.length)

theorem Coder.HoldsIn.mem {c : Coder} {B x : List Byte} (h : c.HoldsIn B x) :
    ∃ y, c.buf = some (x ++ y) ∧ y.length = B.length - x.length ∧ y.drop 1 = B.drop (x.length + 1) := by
  have h1 := h.buf
  have hr := h.room
  by_cases hx : x = []
  · subst hx
    exact ⟨B, by simpa using h1, by simp, by simp⟩
  · rw [if_neg hx] at h1
    refine ⟨(0 :: B.drop (x.length + 1)).take (B.length - x.length), ?_, ?_, ?_⟩
    · rw [h1, List.take_append, List.take_of_length_le hr]
    · simp only [List.length_take, List.length_cons, List.length_drop]; omega
    · by_cases h2 : x.length = B.length
      · rw [h2]; simp
      · rw [show B.length - x.length = (B.length - x.length - 1) + 1 by omega, List.take_succ_cons]
        rw [List.drop_one, List.tail_cons, List.take_of_length_le (by simp; omega)]

/-- One text put behind another. -/
theorem poke_holds {B x o p y : List Byte} (hy : y.length = B.length - x.length) (hd : y.drop 1 = B.drop (x.length + 1))
    (hx : x.length ≤ B.length) (hp : p ≠ []) (ho : (o = p ∨ o = p ++ [0])) (hl : o.length ≤ B.length - x.length)
    (hz : (x ++ p).length < B.length → o = p ++ [0]) :
    pokes (x ++ y) x.length o = some ((x ++ p ++ 0 :: B.drop ((x ++ p).length + 1)).take B.length) := by
  rw [pokes_eq x y B o hy (by omega)]
  congr 1
  have hp1 : 1 ≤ p.length := by
    cases p with
    | nil => exact absurd rfl hp
    | cons => simp
  by_cases hlt : (x ++ p).length < B.length
  · have ho := hz hlt
    subst ho
    have : y.drop (p ++ [0]).length = B.drop ((x ++ p).length + 1) := by
      have := congrArg (List.drop p.length) hd
      rw [List.drop_drop, List.drop_drop] at this
      rw [List.length_append, List.length_singleton, Nat.add_comm, this]
      congr 1
      simp only [List.length_append]; omega
    rw [this]
    rw [List.take_of_length_le (by simp only [List.length_append, List.length_cons, List.length_drop] at hlt ⊢; omega)]
    simp
  · have hop : o = p := by
      rcases ho with h | h
      · exact h
      · subst h
        simp only [List.length_append, List.length_singleton] at hl hlt
        omega
    subst hop
    have hfull : (x ++ o).length = B.length := by
      simp only [List.length_append] at hlt ⊢; omega
    rw [← hfull, List.take_left, List.drop_of_length_le (by simp only [List.length_append] at hfull; omega)]
    simp

theorem Coder.appendIn_eq (hP : P.Ok enc known) {c : Coder} {B x : List Byte} (h : c.HoldsIn B x) (p : List Byte) (hp : p ≠ []) :
    (∃ c', c.appendIn P p = some (true, c') ∧ c'.HoldsIn B (x ++ inPage enc p)) ∨
    (c.appendIn P p = some (false, c) ∧ B.length ≤ (x ++ inPage enc p).length) := by
  obtain ⟨y, h1, h2, h3⟩ := h.mem
  have hr := h.room
  have hlen : (x ++ y).length = B.length := by simp; omega
  have hne : inPage enc p ≠ [] := by
    intro h0
    have := hP.length_le p
    rw [h0] at this
    cases p with
    | nil => exact hp rfl
    | cons => simp at this
  simp only [Coder.appendIn, h1, h.pos, hlen]
  cases hc : P.from1251 (B.length - x.length) p with
  | none =>
    right
    refine ⟨rfl, ?_⟩
    apply Nat.le_of_not_lt
    intro hlt
    rw [hP.from_room _ _ (by simp only [List.length_append] at hlt; omega)] at hc
    cases hc
  | some r =>
    obtain ⟨k, o⟩ := r
    obtain ⟨r1, r2, r3⟩ := hP.from_some _ _ _ _ hc
    left
    have hz : (x ++ inPage enc p).length < B.length → o = inPage enc p ++ [0] := by
      intro hlt
      rw [hP.from_room _ _ (by simp only [List.length_append] at hlt; omega)] at hc
      cases hc
      rfl
    simp only [poke_holds h2 h3 hr hne r2 r3 hz, bind, Option.bind_some]
    refine ⟨_, rfl, ?_, ?_, ?_⟩
    · simp [r1]
    · have : (inPage enc p).length ≤ o.length := by rcases r2 with h | h <;> simp [h]
      simp only [List.length_append]; omega
    · simp [hne]

/-- A text and its zero. -/
theorem Coder.appendzIn_eq (hP : P.Ok enc known) {c : Coder} {B x : List Byte} (h : c.HoldsIn B x) (p : List Byte) :
    (∃ c', c.appendzIn P p = some (true, c') ∧ c'.HoldsIn B (x ++ (inPage enc p ++ [0]))) ∨
    (∃ c', c.appendzIn P p = some (false, c') ∧ c'.buf.map List.length = some B.length ∧ B.length < (x ++ (inPage enc p ++ [0])).length + 1) := by
  have hsz : ∀ {c : Coder} {x : List Byte}, c.HoldsIn B x → c.buf.map List.length = some B.length := by
    intro c x h
    obtain ⟨y, h1, h2, -⟩ := h.mem
    have := h.room
    simp [h1]; omega
  simp only [Coder.appendzIn]
  by_cases hp : p = []
  · subst hp
    obtain ⟨y, h1, h2, h3⟩ := h.mem
    have hr := h.room
    have hlen : (x ++ y).length = B.length := by simp; omega
    have he : inPage enc [] = [] := rfl
    have hfirst : (∃ c', c.appendIn P [] = some (true, c') ∧ c'.pos = x.length ∧ ∃ y', c'.buf = some (x ++ y') ∧ y'.length = B.length - x.length ∧
        y'.drop 1 = B.drop (x.length + 1)) ∨ (c.appendIn P [] = some (false, c) ∧ B.length ≤ x.length) := by
      simp only [Coder.appendIn, h1, h.pos, hlen]
      cases hc : P.from1251 (B.length - x.length) [] with
      | none =>
        right
        refine ⟨rfl, ?_⟩
        apply Nat.le_of_not_lt
        intro hlt
        rw [hP.from_room _ _ (by rw [he, List.length_nil]; omega)] at hc
        cases hc
      | some r =>
        obtain ⟨k, o⟩ := r
        obtain ⟨r1, r2, r3⟩ := hP.from_some _ _ _ _ hc
        left
        simp only [he, List.nil_append] at r1 r2
        simp only [pokes_eq x y B o h2 (by omega), bind, Option.bind_some]
        refine ⟨_, rfl, by simp [r1], o ++ y.drop o.length, by simp, by simp only [List.length_append, List.length_drop]; omega, ?_⟩
        rcases r2 with rfl | rfl
        · simpa using h3
        · simpa using h3
    rcases hfirst with ⟨c1, k1, k2, y', k3, k4, k5⟩ | ⟨k1, k2⟩
    · simp only [k1, bind, Option.bind_some, if_true]
      have hlen' : (x ++ y').length = B.length := by simp; omega
      simp only [Coder.appendIn, k3, k2, hlen', he, List.nil_append]
      cases hc : P.from1251 (B.length - x.length) [0] with
      | none =>
        right
        refine ⟨_, rfl, by simp [k3]; omega, ?_⟩
        apply Nat.lt_of_not_le
        intro hlt
        rw [hP.from_room _ _ (by rw [hP.inPage_zero]; simp only [List.length_append, List.length_singleton] at hlt ⊢; omega)] at hc
        cases hc
      | some r =>
        obtain ⟨k, o⟩ := r
        obtain ⟨r1, r2, r3⟩ := hP.from_some _ _ _ _ hc
        rw [hP.inPage_zero] at r1 r2
        left
        have hz : (x ++ [0]).length < B.length → o = [0] ++ [0] := by
          intro hlt
          rw [hP.from_room _ _ (by rw [hP.inPage_zero]; simp only [List.length_append, List.length_singleton] at hlt ⊢; omega), hP.inPage_zero] at hc
          cases hc
          rfl
        simp only [poke_holds k4 k5 hr (by simp) r2 r3 hz, Option.bind_some]
        refine ⟨_, rfl, by simp [r1], ?_, by simp⟩
        have : 1 ≤ o.length := by rcases r2 with h | h <;> simp [h]
        simp only [List.length_append, List.length_singleton]; omega
    · simp only [k1, bind, Option.bind_some]
      right
      refine ⟨c, rfl, hsz h, ?_⟩
      simp only [he, List.nil_append, List.length_append, List.length_singleton]; omega
  · rcases Coder.appendIn_eq hP h p hp with ⟨c1, k1, k2⟩ | ⟨k1, k2⟩
    · simp only [k1, bind, Option.bind_some, if_true]
      rcases Coder.appendIn_eq hP k2 [0] (by simp) with ⟨c2, l1, l2⟩ | ⟨l1, l2⟩
      · left
        refine ⟨c2, l1, ?_⟩
        rwa [hP.inPage_zero, List.append_assoc] at l2
      · right
        refine ⟨c1, l1, hsz k2, ?_⟩
        rw [hP.inPage_zero, List.append_assoc] at l2
        omega
    · simp only [k1, bind, Option.bind_some]
      right
      refine ⟨c, rfl, hsz h, ?_⟩
      simp only [List.length_append, List.length_singleton] at k2 ⊢; omega

end Libmorph
